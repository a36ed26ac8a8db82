import Verif.Atomic.Model
/-!
C96: atomic counters and exchanges in any schedule.
-/
namespace Bfdev.Atomic
open Scan (Word)

/-! ## Specification -/

/-- The new value of a counter: sums and differences modulo 2^64, and bit by bit. -/
def Means (op : Op) (x v y : Word) : Prop :=
  match op with
  | .add => (y.toNat : Int) % 2 ^ 64 = ((x.toNat : Int) + v.toNat) % 2 ^ 64
  | .sub => (y.toNat : Int) % 2 ^ 64 = ((x.toNat : Int) - v.toNat) % 2 ^ 64
  | .and => ∀ i, i < 64 → y.getLsbD i = (x.getLsbD i && v.getLsbD i)
  | .or => ∀ i, i < 64 → y.getLsbD i = (x.getLsbD i || v.getLsbD i)
  | .xor => ∀ i, i < 64 → y.getLsbD i = (x.getLsbD i != v.getLsbD i)

/-- What a call that takes effect at once makes of the content `x`, and what it returns. -/
def Says (c : Call) (x new ret : Word) (ok : Bool) : Prop :=
  match c with
  | .read => new = x ∧ ret = x
  | .write v => new = v
  | .plain op v => Means op x v new
  | .fetch op v => Means op x v new ∧ ret = x
  | .opFetch op v => Means op x v new ∧ ret = new
  | .cmpxchg old v => ret = x ∧ (x = old → new = v) ∧ (x ≠ old → new = x)
  | .tryCmpxchg old v => (ok = true ↔ x = old) ∧ ret = x ∧ (ok = true → new = v) ∧ (ok = false → new = x)
  | .xchg v => ret = x ∧ new = v

/-- One call after the other (the log is kept latest first): every call finds the word as the calls before left it and changes no other. -/
def Explains (m : Mem) : List (Tid × Ev) → Mem → Prop
  | [], m' => m' = m
  | (_, e) :: l, m' => ∃ m1 new, Explains m l m1 ∧ Says e.call (m1 e.addr) new e.ret e.ok ∧ m' = upd m1 e.addr new

/-! ## Proofs -/

theorem store_means (op : Op) (x v : Word) : Means op x v (op.store x v) := by
  cases op
  · show ((x + v).toNat : Int) % 2 ^ 64 = _
    rw [BitVec.toNat_add]
    have := x.isLt; have := v.isLt
    omega
  · show ((x - v).toNat : Int) % 2 ^ 64 = _
    rw [BitVec.toNat_sub]
    have := x.isLt; have := v.isLt
    omega
  · intro i _; exact BitVec.getLsbD_and
  · intro i _; exact BitVec.getLsbD_or
  · intro i _
    show (x ^^^ v).getLsbD i = _
    rw [BitVec.getLsbD_xor]

theorem finish_explains {m : Mem} {s : Sys} {t : Tid} {a : Nat} {c : Call} {new ret : Word} {ok : Bool} (h : Explains m s.log s.mem)
    (hs : Says c (s.mem a) new ret ok) : Explains m (s.finish t a c new ret ok).log (s.finish t a c new ret ok).mem := ⟨s.mem, new, h, hs, rfl⟩

theorem upd_same (m : Mem) (a : Nat) : upd m a (m a) = m := by
  funext x
  unfold upd
  split
  · rename_i h; rw [h]
  · rfl

theorem step_explains {m : Mem} {s s' : Sys} {t : Tid} {act : Act} (h : Explains m s.log s.mem) (e : step s t act = some s') :
    Explains m s'.log s'.mem := by
  unfold step at e
  split at e
  · rename_i a c _
    cases c with
    | read => cases e; exact finish_explains h ⟨rfl, rfl⟩
    | write v => cases e; exact finish_explains h rfl
    | plain op v => cases e; exact finish_explains h (store_means op _ v)
    | fetch op v => cases e; exact finish_explains h ⟨store_means op _ v, rfl⟩
    | opFetch op v => cases e; exact finish_explains h ⟨store_means op _ v, rfl⟩
    | cmpxchg old v => cases e; exact finish_explains h ⟨rfl, fun hx => if_pos hx, fun hx => if_neg hx⟩
    | tryCmpxchg old v =>
      cases e
      refine finish_explains h ?_
      simp only [Says, tryCas, cas]
      by_cases hx : s.mem a = old
      · simp [hx]
      · simp [hx]
    | xchg v => cases e; exact h
  · cases e; exact h
  · rename_i a v prev _
    by_cases hx : s.mem a = prev
    · rw [if_neg (by simpa [cas] using hx)] at e
      cases e
      refine finish_explains h ⟨rfl, ?_⟩
      simp [cas, hx]
    · rw [if_pos (by simpa [cas] using hx)] at e
      cases e
      simpa only [cas, if_neg hx, upd_same] using h
  · cases e

/-! ## Theorems -/

/-- **C96**: in every schedule of any number of threads, the finished calls in the order in which they took effect are explained by words that every call
finds as the calls before it left them: no update is lost, and what a call returns is the content it replaced (or made). -/
theorem atomic_linearizable (m : Mem) (l : List (Tid × Act)) {s : Sys} (h : run (init m) l = some s) : Explains m s.log s.mem := by
  have gen : ∀ (l : List (Tid × Act)) {s0 s : Sys}, Explains m s0.log s0.mem → run s0 l = some s → Explains m s.log s.mem := by
    intro l
    induction l with
    | nil => intro s0 s h e; cases e; exact h
    | cons x l ih =>
      obtain ⟨t, a⟩ := x
      intro s0 s h e
      obtain ⟨s1, e1, e2⟩ := Option.bind_eq_some_iff.1 e
      exact ih (step_explains h e1) e2
  exact gen l (s0 := init m) (show m = m from rfl) h

/-- What a call adds to a counter, if it is one of the calls that add or subtract or only look. -/
def delta : Call → Option Int
  | .read => some 0
  | .plain .add v | .fetch .add v | .opFetch .add v => some v.toNat
  | .plain .sub v | .fetch .sub v | .opFetch .sub v => some (-v.toNat)
  | _ => none

/-- A counter used by any number of threads: its content is the initial one plus all that was added, less all that was subtracted. -/
theorem counter (m : Mem) (l : List (Tid × Act)) {s : Sys} (h : run (init m) l = some s) (a : Nat)
    (hc : ∀ x ∈ s.log, x.2.addr = a → delta x.2.call ≠ none) :
    ((s.mem a).toNat : Int) = ((m a).toNat + ((s.log.filter (·.2.addr == a)).map fun x => (delta x.2.call).getD 0).sum) % 2 ^ 64 := by
  have key : ∀ (L : List (Tid × Ev)) (m' : Mem), (∀ x ∈ L, x.2.addr = a → delta x.2.call ≠ none) → Explains m L m' →
      ((m' a).toNat : Int) = ((m a).toNat + ((L.filter (·.2.addr == a)).map fun x => (delta x.2.call).getD 0).sum) % 2 ^ 64 := by
    intro L
    induction L with
    | nil =>
      intro m' _ hm
      rw [show m' = m from hm]
      have := (m a).isLt
      simp only [List.filter_nil, List.map_nil, List.sum_nil]
      omega
    | cons x L ih =>
      obtain ⟨t, e⟩ := x
      rintro m' hL ⟨m1, new, h1, hs, rfl⟩
      have i1 := ih m1 (fun x hx => hL x (List.mem_cons_of_mem _ hx)) h1
      by_cases ha : e.addr = a
      · have hd := hL (t, e) List.mem_cons_self ha
        rw [List.filter_cons_of_pos (by simp [ha]), List.map_cons, List.sum_cons, upd, if_pos ha.symm]
        rw [ha] at hs
        generalize ((L.filter (·.2.addr == a)).map fun x => (delta x.2.call).getD 0).sum = S at i1 ⊢
        have := new.isLt
        obtain ⟨ea, ec, er, eo⟩ := e
        simp only at hs hd ⊢
        cases ec with
        | read => simp only [delta, Option.getD_some]; rw [hs.1]; omega
        | plain op v => cases op <;> first | exact absurd rfl hd | (simp only [delta, Option.getD_some, Says, Means] at hs ⊢; omega)
        | fetch op v => cases op <;> first | exact absurd rfl hd | (simp only [delta, Option.getD_some, Says, Means] at hs ⊢; omega)
        | opFetch op v => cases op <;> first | exact absurd rfl hd | (simp only [delta, Option.getD_some, Says, Means] at hs ⊢; omega)
        | _ => exact absurd rfl hd
      · rw [List.filter_cons_of_neg (by simp [ha]), upd, if_neg (fun h => ha h.symm)]
        exact i1
  exact key _ _ hc (atomic_linearizable m l h)

/-- Tickets: calls that fetch and add one get consecutive values in the order in which they took effect, so no two of fewer than 2^64 get the same. -/
theorem tickets (m : Mem) (l : List (Tid × Act)) {s : Sys} (h : run (init m) l = some s) (a : Nat)
    (hc : ∀ x ∈ s.log, x.2.addr = a → x.2.call = .fetch .add 1#64) (hn : (s.log.filter (·.2.addr == a)).length < 2 ^ 64) :
    (s.log.filter (·.2.addr == a)).reverse.map (·.2.ret) =
      (List.range (s.log.filter (·.2.addr == a)).length).map (fun i => m a + BitVec.ofNat 64 i) ∧
    ((s.log.filter (·.2.addr == a)).map (·.2.ret)).Nodup := by
  have key : ∀ (L : List (Tid × Ev)) (m' : Mem), (∀ x ∈ L, x.2.addr = a → x.2.call = .fetch .add 1#64) → Explains m L m' →
      m' a = m a + BitVec.ofNat 64 (L.filter (·.2.addr == a)).length ∧
      (L.filter (·.2.addr == a)).reverse.map (·.2.ret) = (List.range (L.filter (·.2.addr == a)).length).map (fun i => m a + BitVec.ofNat 64 i) := by
    intro L
    induction L with
    | nil => intro m' _ hm; rw [show m' = m from hm]; simp
    | cons x L ih =>
      obtain ⟨t, ea, ec, er, eo⟩ := x
      rintro m' hL ⟨m1, new, h1, hs, rfl⟩
      obtain ⟨i1, i2⟩ := ih m1 (fun x hx => hL x (List.mem_cons_of_mem _ hx)) h1
      by_cases ha : ea = a
      · subst ha
        have hd := hL _ List.mem_cons_self rfl
        simp only at hd
        subst hd
        obtain ⟨hs1, hs2⟩ := hs
        simp only at hs1 hs2
        rw [List.filter_cons_of_pos (by simp), List.length_cons, List.reverse_cons, List.map_append, i2, List.range_succ, List.map_append]
        constructor
        · rw [upd, if_pos rfl]
          have hs1' : ((new.toNat : Int)) % 2 ^ 64 = (((m1 ea).toNat : Int) + (1#64).toNat) % 2 ^ 64 := hs1
          have : new = m1 ea + 1#64 := by
            apply BitVec.eq_of_toNat_eq
            rw [BitVec.toNat_add]
            have := new.isLt; have := (m1 ea).isLt
            omega
          rw [this, i1, BitVec.add_assoc]
          congr 1
          apply BitVec.eq_of_toNat_eq
          simp [BitVec.toNat_add]
        · simp only [List.map_cons, List.map_nil]
          rw [hs2, i1]
      · rw [List.filter_cons_of_neg (by simp [ha]), upd, if_neg (fun h => ha h.symm)]
        exact ⟨i1, i2⟩
  have k := (key _ _ hc (atomic_linearizable m l h)).2
  refine ⟨k, ?_⟩
  have hnd : ((List.range (s.log.filter (·.2.addr == a)).length).map (fun i => m a + BitVec.ofNat 64 i)).Nodup := by
    rw [List.nodup_iff_pairwise_ne, List.pairwise_map]
    refine List.Pairwise.imp_of_mem ?_ List.pairwise_lt_range
    intro i j hi hj hij e
    rw [List.mem_range] at hi hj
    have e2 := congrArg BitVec.toNat e
    simp only [BitVec.toNat_add, BitVec.toNat_ofNat] at e2
    have := (m a).isLt
    omega
  rw [← k, List.map_reverse] at hnd
  rw [List.nodup_iff_pairwise_ne] at hnd ⊢
  rw [List.pairwise_reverse] at hnd
  exact hnd.imp fun h e => h e.symm

/-- Handing over: if a word is only exchanged, every value ever put there is either taken out by exactly one call or still there. -/
theorem handover (m : Mem) (l : List (Tid × Act)) {s : Sys} (h : run (init m) l = some s) (a : Nat) (val : Ev → Word)
    (hc : ∀ x ∈ s.log, x.2.addr = a → x.2.call = .xchg (val x.2)) :
    (m a :: (s.log.filter (·.2.addr == a)).map fun x => val x.2).Perm (s.mem a :: (s.log.filter (·.2.addr == a)).map (·.2.ret)) := by
  have key : ∀ (L : List (Tid × Ev)) (m' : Mem), (∀ x ∈ L, x.2.addr = a → x.2.call = .xchg (val x.2)) → Explains m L m' →
      (m a :: (L.filter (·.2.addr == a)).map fun x => val x.2).Perm (m' a :: (L.filter (·.2.addr == a)).map (·.2.ret)) := by
    intro L
    induction L with
    | nil => intro m' _ hm; rw [show m' = m from hm]; exact List.Perm.refl _
    | cons x L ih =>
      obtain ⟨t, e⟩ := x
      rintro m' hL ⟨m1, new, h1, hs, rfl⟩
      have i1 := ih m1 (fun x hx => hL x (List.mem_cons_of_mem _ hx)) h1
      by_cases ha : e.addr = a
      · have hd := hL _ List.mem_cons_self ha
        simp only at hd
        rw [hd] at hs
        obtain ⟨hs1, hs2⟩ := hs
        rw [List.filter_cons_of_pos (by simp [ha]), List.map_cons, List.map_cons, upd, if_pos ha.symm, hs2]
        refine (List.Perm.swap _ _ _).trans (List.Perm.cons _ ?_)
        rw [hs1, ha]
        exact i1
      · rw [List.filter_cons_of_neg (by simp [ha]), upd, if_neg (fun h => ha h.symm)]
        exact i1
  exact key _ _ hc (atomic_linearizable m l h)

/-- Election: among calls that compare with the same initial value and swap in another one, exactly one succeeds as soon as somebody has tried, and all the
others find what the winner put there. -/
theorem election (m : Mem) (l : List (Tid × Act)) {s : Sys} (h : run (init m) l = some s) (a : Nat) (val : Ev → Word) (hv : ∀ e, val e ≠ m a)
    (hc : ∀ x ∈ s.log, x.2.addr = a → x.2.call = .cmpxchg (m a) (val x.2)) :
    match (s.log.filter (·.2.addr == a)).reverse with
    | [] => s.mem a = m a
    | w :: rest => w.2.ret = m a ∧ s.mem a = val w.2 ∧ ∀ x ∈ rest, x.2.ret = val w.2 := by
  have key : ∀ (L : List (Tid × Ev)) (m' : Mem), (∀ x ∈ L, x.2.addr = a → x.2.call = .cmpxchg (m a) (val x.2)) → Explains m L m' →
      match (L.filter (·.2.addr == a)).reverse with
      | [] => m' a = m a
      | w :: rest => w.2.ret = m a ∧ m' a = val w.2 ∧ ∀ x ∈ rest, x.2.ret = val w.2 := by
    intro L
    induction L with
    | nil => intro m' _ hm; rw [show m' = m from hm]; rfl
    | cons x L ih =>
      obtain ⟨t, e⟩ := x
      rintro m' hL ⟨m1, new, h1, hs, rfl⟩
      have i1 := ih m1 (fun x hx => hL x (List.mem_cons_of_mem _ hx)) h1
      by_cases ha : e.addr = a
      · have hd := hL _ List.mem_cons_self ha
        simp only at hd
        rw [hd, ha] at hs
        obtain ⟨hs1, hs2, hs3⟩ := hs
        rw [List.filter_cons_of_pos (by simp [ha]), List.reverse_cons, upd, if_pos ha.symm]
        cases hr : (L.filter (·.2.addr == a)).reverse with
        | nil =>
          rw [hr] at i1
          exact ⟨hs1.trans i1, hs2 i1, fun x hx => by cases hx⟩
        | cons w rest =>
          rw [hr] at i1
          obtain ⟨j1, j2, j3⟩ := i1
          refine ⟨j1, ?_, ?_⟩
          · rw [hs3 (by rw [j2]; exact hv _), j2]
          · intro x hx
            rcases List.mem_append.1 hx with hx | hx
            · exact j3 x hx
            · rw [List.mem_singleton] at hx
              subst hx
              exact hs1.trans j2
      · rw [List.filter_cons_of_neg (by simp [ha]), upd, if_neg (fun h => ha h.symm)]
        exact i1
  exact key _ _ hc (atomic_linearizable m l h)

/-! ### Progress -/

/-- What is kept about the rounds of the exchange loop. -/
def Rounds (s : Sys) : Prop := ∀ t, match s.loc t with
  | .swapping a _ prev => ∃ seen, s.again t ≤ seen ∧ seen ≤ s.log.length ∧ (s.mem a ≠ prev → seen < s.log.length)
  | _ => s.again t ≤ s.log.length

theorem rounds_le {s : Sys} (h : Rounds s) (t : Tid) : s.again t ≤ s.log.length := by
  have := h t
  split at this
  · obtain ⟨seen, h1, h2, -⟩ := this; omega
  · exact this

theorem rounds_finish {s : Sys} (h : Rounds s) {t : Tid} {a : Nat} {c : Call} {new ret : Word} {ok : Bool} : Rounds (s.finish t a c new ret ok) := by
  intro u
  have hu := h u
  have hle := rounds_le h u
  simp only [Sys.finish, upd, List.length_cons]
  by_cases e : u = t
  · rw [if_pos e]; show s.again u ≤ _; omega
  · rw [if_neg e]
    split
    · rename_i b v prev hl
      rw [hl] at hu
      obtain ⟨seen, h1, h2, -⟩ := hu
      exact ⟨seen, h1, by omega, fun _ => by omega⟩
    · omega

theorem rounds_step {s s' : Sys} {t : Tid} {act : Act} (h : Rounds s) (e : step s t act = some s') : Rounds s' := by
  have hread : ∀ a v, Rounds { s with loc := upd s.loc t (.swapping a v (s.mem a)) } := by
    intro a v u
    have hu := h u
    have hle := rounds_le h u
    simp only [upd]
    by_cases e : u = t
    · rw [if_pos e]; exact ⟨s.log.length, hle, Nat.le_refl _, fun hx => absurd rfl hx⟩
    · rw [if_neg e]; exact hu
  unfold step at e
  split at e
  · rename_i a c _
    cases c with
    | xchg v => cases e; exact hread a v
    | _ => cases e; exact rounds_finish h
  · rename_i a v _
    cases e
    exact hread a v
  · rename_i a v prev hl
    by_cases hx : s.mem a = prev
    · rw [if_neg (by simpa [cas] using hx)] at e
      cases e
      exact rounds_finish h
    · rw [if_pos (by simpa [cas] using hx)] at e
      cases e
      intro u
      have hu := h u
      simp only [cas, if_neg hx, upd_same]
      simp only [upd]
      by_cases e : u = t
      · subst e
        rw [hl] at hu
        obtain ⟨seen, h1, h2, h3⟩ := hu
        have := h3 hx
        rw [if_pos rfl, if_pos rfl]
        show s.again u + 1 ≤ _
        omega
      · rw [if_neg e, if_neg e]; exact hu
  · cases e

/-- **C96, progress**: in every schedule no thread goes round the loop of an exchange more often than calls were finished; so an exchange is held up only by
others that succeed. A thread left alone finishes within three steps, and every other call in one. -/
theorem lock_free (m : Mem) (l : List (Tid × Act)) {s : Sys} (h : run (init m) l = some s) (t : Tid) :
    s.again t ≤ s.log.length ∧
    (∀ a v, s.loc t = .reading a v ∨ (∃ prev, s.loc t = .swapping a v prev) → ∃ k ≤ 3, ∃ s', run s (List.replicate k (t, .go)) = some s' ∧ s'.loc t = .idle ∧
      s'.log = (t, ⟨a, .xchg v, s.mem a, false⟩) :: s.log) ∧
    (s.loc t = .idle → ∀ a c, (∀ v, c ≠ .xchg v) → ∃ s' ret ok, step s t (.call a c) = some s' ∧ s'.loc t = .idle ∧ s'.log = (t, ⟨a, c, ret, ok⟩) :: s.log) := by
  have gen : ∀ (l : List (Tid × Act)) {s0 s : Sys}, Rounds s0 → run s0 l = some s → Rounds s := by
    intro l
    induction l with
    | nil => intro s0 s h e; cases e; exact h
    | cons x l ih =>
      obtain ⟨t, a⟩ := x
      intro s0 s h e
      obtain ⟨s1, e1, e2⟩ := Option.bind_eq_some_iff.1 e
      exact ih (rounds_step h e1) e2
  refine ⟨rounds_le (gen l (s0 := init m) (fun _ => Nat.le_refl _) h) t, ?_, ?_⟩
  · rintro a v (hl | ⟨prev, hl⟩)
    · refine ⟨2, by omega, Sys.finish { s with loc := upd s.loc t (.swapping a v (s.mem a)) } t a (.xchg v) v (s.mem a) false, ?_, ?_, rfl⟩
      · simp [List.replicate, run, step, hl, cas, upd]
      · simp [Sys.finish, upd]
    · by_cases hx : s.mem a = prev
      · refine ⟨1, by omega, s.finish t a (.xchg v) v (s.mem a) false, ?_, by simp [Sys.finish, upd], rfl⟩
        simp [run, step, hl, cas, hx]
      · refine ⟨3, by omega, Sys.finish { s with mem := upd s.mem a (s.mem a), loc := upd (upd s.loc t (.reading a v)) t (.swapping a v (s.mem a)), again := upd s.again t (s.again t + 1) } t a (.xchg v) v (s.mem a) false, ?_, ?_, rfl⟩
        · simp [List.replicate, run, step, hl, cas, hx, upd]
        · simp [Sys.finish, upd]
  · intro hl a c hc
    cases c with
    | xchg v => exact absurd rfl (hc v)
    | _ => exact ⟨_, _, _, by unfold step; rw [hl], by simp [Sys.finish, upd], rfl⟩

/-- Two exchanges that read the same value and a compare-and-swap that puts the same value back in between: the second goes round once, the value that came
back does no harm, and every value is handed over once. -/
example : ((run (init fun _ => 5#64) [(0, .call 0 (.xchg 6#64)), (1, .call 0 (.xchg 7#64)), (0, .go), (2, .call 0 (.cmpxchg 6#64 5#64)), (1, .go),
    (2, .call 0 (.tryCmpxchg 6#64 9#64)), (0, .call 0 (.xchg 8#64)), (2, .call 0 (.fetch .add 2#64)), (0, .go), (0, .go), (0, .go)]).map
      fun s => (s.log, s.mem 0, s.again 0)) =
    some ([(0, ⟨0, .xchg 8#64, 9#64, false⟩), (2, ⟨0, .fetch .add 2#64, 7#64, false⟩), (2, ⟨0, .tryCmpxchg 6#64 9#64, 7#64, false⟩),
      (1, ⟨0, .xchg 7#64, 5#64, false⟩), (2, ⟨0, .cmpxchg 6#64 5#64, 6#64, false⟩), (0, ⟨0, .xchg 6#64, 5#64, false⟩)], 8#64, 1) := by decide +kernel

/-- Logs that meet the hypotheses of `tickets`, `handover` and `election`. -/
example : ((run (init fun _ => 5#64) [(0, .call 0 (.fetch .add 1#64)), (1, .call 0 (.fetch .add 1#64)), (0, .call 1 (.xchg 6#64)), (1, .call 1 (.xchg 7#64)), (0, .go), (1, .go),
      (1, .go), (1, .go), (0, .call 2 (.cmpxchg 5#64 1#64)), (1, .call 2 (.cmpxchg 5#64 2#64))]).map fun s => (s.log, s.mem 0, s.mem 1, s.mem 2)) =
    some ([(1, ⟨2, .cmpxchg 5#64 2#64, 1#64, false⟩), (0, ⟨2, .cmpxchg 5#64 1#64, 5#64, false⟩), (1, ⟨1, .xchg 7#64, 6#64, false⟩), (0, ⟨1, .xchg 6#64, 5#64, false⟩),
      (1, ⟨0, .fetch .add 1#64, 6#64, false⟩), (0, ⟨0, .fetch .add 1#64, 5#64, false⟩)], 7#64, 7#64, 1#64) := by decide +kernel

end Bfdev.Atomic

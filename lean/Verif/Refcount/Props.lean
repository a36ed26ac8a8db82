import Verif.Refcount.Model
/-!
C21 and C72: reference counters shared by threads.
-/
namespace Bfdev.Refcount
open Scan (Word)

/-- The full statement of C21: in every schedule, every finished conditional acquisition saw zero and added nothing, or reports
non-zero and added exactly once. -/
def Atomic : Prop := ∀ (count : Word) (l : List (Tid × Act)) (s : Sys), run (init count) l = some s →
  ∀ t nr old zero made, (t, Ev.addnz nr old zero made) ∈ s.log → made = if zero then 0 else 1

/-- C21 fails: when another thread takes a reference between the read and the exchange, the call reports success without having
acquired anything. -/
theorem addnz_lost_violated : (run (init 1) [(0, .addnz 1), (1, .add 1), (0, .go)]).map (fun s => (s.count, s.log)) =
    some (2, [(0, .addnz 1 2 false 0), (1, .add 1 1)]) := by decide

/-- C21 fails: when another thread drops a reference after the successful exchange, the call takes a second reference. -/
theorem addnz_twice_violated : (run (init 1) [(0, .addnz 1), (0, .go), (1, .subTest 1), (0, .go), (0, .go)]).map (fun s => (s.count, s.log)) =
    some (2, [(0, .addnz 1 2 false 2), (1, .subTest 1 2 false)]) := by decide

/-- C21 fails: the call can report zero although it added. -/
theorem addnz_zero_violated : (run (init 1) [(0, .addnz 1), (0, .go), (1, .subTest 2), (0, .go)]).map (fun s => (s.count, s.log)) =
    some (0, [(0, .addnz 1 0 true 1), (1, .subTest 2 2 true)]) := by decide

theorem addnz_not_atomic : ¬ Atomic := by
  intro h
  have h1 := addnz_lost_violated
  cases hr : run (init 1) [(0, .addnz 1), (1, .add 1), (0, .go)] with
  | none => rw [hr] at h1; cases h1
  | some s =>
    rw [hr] at h1
    have h2 := h 1 _ s hr 0 1 2 false 0
    have h3 : s.log = [(0, .addnz 1 2 false 0), (1, .add 1 1)] := by
      have := Option.some.inj h1
      exact congrArg Prod.snd this
    rw [h3] at h2
    exact absurd (h2 (by simp)) (by decide)

theorem at_same (s : Sys) (t : Tid) (l : Loc) : (s.at t l).loc t = l := by simp [Sys.at]

/-- C21 without interference: from any state, a conditional acquisition by an idle thread whose steps are not interleaved with others
finishes after its first turn with nothing added when the counter is zero, and otherwise after its second turn with exactly `nr`
added. What is missing: interference, see `addnz_not_atomic`. The value handed out is the new one, not the old one. -/
theorem addnz_alone_partial (s : Sys) (t : Tid) (nr : Word) (hidle : s.loc t = .idle) (hnr : nr ≠ 0) :
    ∃ s' l, run s l = some s' ∧ (∀ x ∈ l, x.1 = t) ∧ s'.loc t = .idle ∧ (∀ u, u ≠ t → s'.loc u = s.loc u) ∧
      if s.count = 0 then l = [(t, .addnz nr), (t, .go)] ∧ s'.count = 0 ∧ s'.log = (t, .addnz nr 0 true 0) :: s.log
      else l = [(t, .addnz nr), (t, .go), (t, .go)] ∧ s'.count = s.count + nr ∧
        s'.log = (t, .addnz nr (s.count + nr) (s.count + nr == 0) 1) :: s.log := by
  by_cases h0 : s.count = 0
  · refine ⟨(s.at t (.trying nr s.count 0)).turn t nr s.count 0, [(t, .addnz nr), (t, .go)], ?_, by simp, ?_, ?_, ?_⟩
    · simp only [run, step, hidle, Option.bind_some, at_same]
    · simp [Sys.turn, h0, Sys.finish, Sys.at]
    · intro u hu; simp [Sys.turn, h0, Sys.finish, Sys.at, hu]
    · rw [if_pos h0]
      simp [Sys.turn, h0, Sys.finish, Sys.at]
  · have hne : s.count + nr ≠ s.count := by
      intro e
      apply hnr
      have := congrArg (· - s.count) e
      simpa [BitVec.add_comm, BitVec.add_sub_cancel] using this
    have h0' : ¬ s.count = 0#64 := h0
    refine ⟨({ s with count := s.count + nr }.at t (.trying nr s.count 1)).turn t nr s.count 1,
      [(t, .addnz nr), (t, .go), (t, .go)], ?_, by simp, ?_, ?_, ?_⟩
    · simp only [run, step, hidle, Option.bind_some, at_same]
      have e1 : ((s.at t (.trying nr s.count 0)).turn t nr s.count 0) =
          ({ s with count := s.count + nr }.at t (.trying nr s.count 1)) := by
        simp only [Sys.turn, if_neg h0, tryCmpxchg, Sys.at]
        simp only [if_true, beq_self_eq_true, ne_eq, not_true, if_false, Nat.zero_add]
        congr 1
        funext u
        by_cases hu : u = t <;> simp [hu]
      rw [e1]
      simp only [at_same, Option.bind_some]
    · simp [Sys.turn, h0', Sys.finish, Sys.at, tryCmpxchg, hne]
    · intro u hu; simp [Sys.turn, h0', Sys.finish, Sys.at, tryCmpxchg, hne, hu]
    · rw [if_neg h0]
      simp [Sys.turn, h0', Sys.finish, Sys.at, tryCmpxchg, hne]

/-- An acquisition of zero references from a live counter never returns when nobody interferes. -/
theorem addnz_nothing_hangs (s : Sys) (t : Tid) (hidle : s.loc t = .idle) (h0 : s.count ≠ 0) (n : Nat) :
    ∃ s', run s ((t, .addnz 0) :: List.replicate n (t, .go)) = some s' ∧ s'.loc t ≠ .idle := by
  have key : ∀ (n : Nat) (s : Sys) (m : Nat), s.count ≠ 0 → s.loc t = .trying 0 s.count m →
      ∃ s', run s (List.replicate n (t, .go)) = some s' ∧ s'.loc t ≠ .idle := by
    intro n
    induction n with
    | zero => intro s m h0 hl; exact ⟨s, rfl, by rw [hl]; simp⟩
    | succ n ih =>
      intro s m h0 hl
      simp only [List.replicate_succ, run, step, hl, Option.bind_some]
      have h0' : ¬ s.count = 0#64 := h0
      apply ih _ (m + 1)
      · simp [Sys.turn, h0', tryCmpxchg, Sys.at]
      · simp [Sys.turn, h0', tryCmpxchg, Sys.at]
  simp only [run, step, hidle, Option.bind_some]
  exact key n _ 0 h0 (at_same _ _ _)

/-! ### Plain references -/

/-- References held by each thread, changed only by getting and putting. -/
abbrev Held := Tid → Nat

/-- A thread that holds a reference takes more, hands one over to another thread, or puts some of its own. -/
inductive Use where
  | get (t : Tid) (n : Nat)
  | put (t : Tid) (n : Nat)
  | give (t u : Tid)

def bump (f : Held) (t : Tid) (n : Nat) : Held := fun u => if u = t then n else f u

/-- The step on the counter (none for a hand-over) and on the references held. -/
def Use.run (s : Sys) (f : Held) : Use → Option (Sys × Held)
  | .get t n => (step s t (.add (BitVec.ofNat 64 n))).map fun s' => (s', bump f t (f t + n))
  | .put t n => (step s t (.subTest (BitVec.ofNat 64 n))).map fun s' => (s', bump f t (f t - n))
  | .give t u => some (s, let f := bump f t (f t - 1); bump f u (f u + 1))

/-- Only holders act, and the number of references stays below 2^64. -/
def Use.Ok (f : Held) (ts : List Tid) (x : Use) : Prop :=
  match x with
  | .get t n => t ∈ ts ∧ 0 < f t ∧ (ts.map f).sum + n < 2 ^ 64
  | .put t n => t ∈ ts ∧ 0 < n ∧ n ≤ f t
  | .give t u => t ∈ ts ∧ u ∈ ts ∧ 0 < f t

def useAll (s : Sys) (f : Held) : List Use → Option (Sys × Held)
  | [] => some (s, f)
  | x :: l => (x.run s f).bind fun r => useAll r.1 r.2 l

def OkAll (ts : List Tid) (s : Sys) (f : Held) : List Use → Prop
  | [] => True
  | x :: l => x.Ok f ts ∧ ∀ r, x.run s f = some r → OkAll ts r.1 r.2 l

/-- How many puts reported that the last reference is gone. -/
def ends (log : List (Tid × Ev)) : Nat := log.countP fun e => match e.2 with | .subTest _ _ z => z | _ => false

theorem sum_bump {ts : List Tid} (hn : ts.Nodup) {f : Held} {t : Tid} (ht : t ∈ ts) (n : Nat) :
    (ts.map (bump f t n)).sum + f t = (ts.map f).sum + n := by
  induction ts with
  | nil => cases ht
  | cons a ts ih =>
    obtain ⟨h1, h2⟩ := List.nodup_cons.1 hn
    simp only [List.map_cons, List.sum_cons]
    rcases List.mem_cons.1 ht with e | e
    · subst e
      have : ts.map (bump f t n) = ts.map f := List.map_congr_left fun u hu => by
        have : u ≠ t := fun e => h1 (e ▸ hu)
        simp [bump, this]
      rw [this]; simp [bump]; omega
    · have hne : a ≠ t := fun h => h1 (h ▸ e)
      have := ih h2 e
      simp only [bump, if_neg hne] at this ⊢
      omega

theorem le_sum {ts : List Tid} {f : Held} {t : Tid} (ht : t ∈ ts) : f t ≤ (ts.map f).sum := by
  induction ts with
  | nil => cases ht
  | cons a ts ih =>
    simp only [List.map_cons, List.sum_cons]
    rcases List.mem_cons.1 ht with e | e
    · subst e; omega
    · have := ih e; omega

structure Good (ts : List Tid) (s : Sys) (f : Held) : Prop where
  idle : ∀ t, s.loc t = .idle
  count : s.count.toNat = (ts.map f).sum
  last : ends s.log = if (ts.map f).sum = 0 then 1 else 0

theorem good_step {ts : List Tid} (hn : ts.Nodup) {s : Sys} {f : Held} (h : Good ts s f) (x : Use) (ok : x.Ok f ts) :
    ∃ s' f', x.run s f = some (s', f') ∧ Good ts s' f' := by
  cases x with
  | get t n =>
    obtain ⟨ht, hp, hlt⟩ := ok
    refine ⟨{ s with count := s.count + BitVec.ofNat 64 n, log := (t, .add (BitVec.ofNat 64 n) s.count) :: s.log }, bump f t (f t + n),
      by simp only [Use.run, step, h.idle t, Option.map_some], h.idle, ?_, ?_⟩
    · have := sum_bump hn (f := f) ht (f t + n)
      have hc := h.count
      show (s.count + BitVec.ofNat 64 n).toNat = _
      rw [BitVec.toNat_add, BitVec.toNat_ofNat]
      omega
    · have := sum_bump hn (f := f) ht (f t + n)
      have h2 := le_sum (f := f) ht
      have h3 := h.last
      rw [if_neg (by omega)] at h3
      rw [if_neg (by omega)]
      simp only [ends, List.countP_cons] at h3 ⊢
      simp [h3]
  | put t n =>
    obtain ⟨ht, hp, hle⟩ := ok
    have h1 := sum_bump hn (f := f) ht (f t - n)
    have h2 := le_sum (f := f) ht
    have hc := h.count
    refine ⟨{ s with count := s.count - BitVec.ofNat 64 n, log := (t, .subTest (BitVec.ofNat 64 n) s.count (s.count == BitVec.ofNat 64 n)) :: s.log },
      bump f t (f t - n),
      by simp only [Use.run, step, h.idle t, Option.map_some], h.idle, ?_, ?_⟩
    · show (s.count - BitVec.ofNat 64 n).toNat = _
      have := s.count.isLt
      rw [BitVec.toNat_sub, BitVec.toNat_ofNat]
      omega
    · have h3 := h.last
      rw [if_neg (by omega)] at h3
      have h4 : (s.count == BitVec.ofNat 64 n) = decide ((ts.map (bump f t (f t - n))).sum = 0) := by
        have := s.count.isLt
        rw [Bool.eq_iff_iff, beq_iff_eq, decide_eq_true_iff, ← BitVec.toNat_inj, BitVec.toNat_ofNat]
        omega
      simp only [ends, List.countP_cons] at h3 ⊢
      rw [h3, h4]
      simp
  | give t u =>
    obtain ⟨ht, hu, hp⟩ := ok
    have h1 := sum_bump hn (f := f) ht (f t - 1)
    have h3 := sum_bump hn (f := bump f t (f t - 1)) hu (bump f t (f t - 1) u + 1)
    refine ⟨_, _, rfl, h.idle, ?_, ?_⟩
    · rw [h.count]; dsimp only; omega
    · rw [h.last]; dsimp only
      have e : (ts.map f).sum = (ts.map (bump (bump f t (f t - 1)) u (bump f t (f t - 1) u + 1))).sum := by omega
      rw [← e]

/-- C72: start with one reference held by one of the threads `ts`. In every interleaving of takes, puts and hand-overs in which only
holders act, no step blocks, the counter equals the number of references held, and the number of puts that reported "last" is one when
no reference is left and zero otherwise: the object is freed exactly once, and never while somebody holds it. -/
theorem refs_freed_once (ts : List Tid) (hn : ts.Nodup) (t0 : Tid) (h0 : t0 ∈ ts) (l : List Use)
    (ok : OkAll ts (init initial) (fun t => if t = t0 then 1 else 0) l) :
    ∃ s f, useAll (init initial) (fun t => if t = t0 then 1 else 0) l = some (s, f) ∧
      s.count.toNat = (ts.map f).sum ∧ ends s.log = if (ts.map f).sum = 0 then 1 else 0 := by
  have key : ∀ (l : List Use) (s : Sys) (f : Held), Good ts s f → OkAll ts s f l →
      ∃ s' f', useAll s f l = some (s', f') ∧ Good ts s' f' := by
    intro l
    induction l with
    | nil => exact fun s f h _ => ⟨s, f, rfl, h⟩
    | cons x l ih =>
      intro s f h ok
      obtain ⟨s', f', e, h'⟩ := good_step hn h x ok.1
      obtain ⟨s2, f2, e2, h2⟩ := ih s' f' h' (ok.2 _ e)
      exact ⟨s2, f2, by simp only [useAll, e, Option.bind_some, e2], h2⟩
  have hz : ∀ ts : List Tid, (ts.map fun _ => 0).sum = 0 := by
    intro ts
    induction ts with
    | nil => rfl
    | cons a l ih => simpa using ih
  have hsum : (ts.map fun t => if t = t0 then 1 else 0).sum = 1 := by
    have := sum_bump hn (f := fun _ => 0) h0 1
    rw [hz] at this
    simpa [show (bump (fun _ => 0) t0 1 : Held) = fun t => if t = t0 then 1 else 0 from rfl] using this
  obtain ⟨s, f, e, h⟩ := key l _ _ ⟨fun _ => rfl, by rw [hsum]; rfl, by rw [hsum]; rfl⟩ ok
  exact ⟨s, f, e, h.count, h.last⟩

/-! Two threads: take, hand over, put, put. -/
example : (useAll (init initial) (fun t => if t = 0 then 1 else 0) [.get 0 3, .give 0 1, .put 0 3, .put 1 1]).map
    (fun r => (r.1.count, r.1.log)) = some (0, [(1, .subTest 1 1 true), (0, .subTest 3 4 false), (0, .add 3 1)]) := by decide

example : OkAll [0, 1] (init initial) (fun t => if t = 0 then 1 else 0) [.get 0 3, .give 0 1, .put 0 3, .put 1 1] := by
  refine ⟨⟨by decide, by decide, by decide⟩, fun r h => ?_⟩
  cases h
  refine ⟨⟨by decide, by decide, by decide⟩, fun r h => ?_⟩
  cases h
  refine ⟨⟨by decide, by decide, by decide⟩, fun r h => ?_⟩
  cases h
  refine ⟨⟨by decide, by decide, by decide⟩, fun r h => trivial⟩

example : (init 5).loc 3 = .idle ∧ (7 : Word) ≠ 0 := by decide

end Bfdev.Refcount

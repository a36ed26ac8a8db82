import Verif.Cache.Props
/-!
C134: a least-recently-used cache that is used for one entry at a time holds exactly the entries used last, so that a larger cache never misses where a smaller
one hits.
-/
namespace Bfdev.Cache

/-! ### Specification -/

/-- The distinct tags of a history, the one used last first; the history has the newest request first. -/
def recent : List Nat → List Nat
  | [] => []
  | t :: past => t :: (recent past).filter (· ≠ t)

/-- How many uses of a history, newest first, are of a tag that is not among the `size` different tags used last. -/
def missed (size : Nat) : List Nat → Nat
  | [] => 0
  | t :: past => missed size past + if t ∈ (recent past).take size then 0 else 1

/-- One use of an entry by a caller, of `bfdev_cache_obtain`, `bfdev_cache_committed` and `bfdev_cache_put`, cache.c:141-220, 263-275: obtain it, fill in its data, commit the change and give it back. -/
def use (ops : Ops) (data : Nat → Nat) (c : Cache (List Nat)) (tag : Nat) : Option (Cache (List Nat)) :=
  (Cache.obtain lru ops c tag true false).bind fun r =>
    if r.2 = 0 then none else (Cache.put lru (committed { r.1 with data := upd r.1.data r.2 (data tag) }) r.2).map fun r => r.1

/-- A history of uses, newest first. -/
def uses (ops : Ops) (data : Nat → Nat) (c : Cache (List Nat)) : List Nat → Option (Cache (List Nat))
  | [] => some c
  | t :: past => (uses ops data c past).bind fun c => use ops data c t

/-- The cache holds the tag. -/
def Holds (ops : Ops) (c : Cache (List Nat)) (tag : Nat) : Prop := ∃ n, n ≠ 0 ∧ find ops c tag = some n

/-! ### Lists -/

theorem recent_nodup : ∀ past, (recent past).Nodup
  | [] => List.nodup_nil
  | t :: past => by
    rw [recent, List.nodup_cons]
    exact ⟨by simp, (recent_nodup past).filter _⟩

theorem missed_le (size : Nat) : ∀ past, missed size past ≤ past.length
  | [] => Nat.le_refl _
  | t :: past => by
    have := missed_le size past
    rw [missed, List.length_cons]
    split <;> omega

theorem filter_id {t : Nat} {l : List Nat} (h : t ∉ l) : l.filter (· ≠ t) = l := by
  rw [List.filter_eq_self]
  intro a ha
  simpa using fun e : a = t => h (e ▸ ha)

theorem take_hit {t S : Nat} {R : List Nat} (hn : R.Nodup) (h : t ∈ R.take S) : (t :: R.filter (· ≠ t)).take S = t :: (R.take S).filter (· ≠ t) := by
  obtain ⟨A, B, e⟩ := List.append_of_mem (List.mem_of_mem_take h)
  subst e
  have hA : t ∉ A := fun ha => (List.nodup_append.1 hn).2.2 t ha t (by simp) rfl
  have hB : t ∉ B := (List.nodup_cons.1 (List.nodup_append.1 hn).2.1).1
  have hlt : A.length < S := by
    refine Nat.not_le.1 fun hge => hA ?_
    rw [List.take_append_of_le_length hge] at h
    exact List.mem_of_mem_take h
  obtain ⟨q, rfl⟩ : ∃ q, S = A.length + (q + 1) := ⟨S - A.length - 1, by omega⟩
  have e1 : (A ++ t :: B).filter (· ≠ t) = A ++ B := by
    rw [List.filter_append, filter_id hA, List.filter_cons_of_neg (by simp), filter_id hB]
  have hB' : t ∉ B.take q := fun hb => hB (List.mem_of_mem_take hb)
  rw [e1, List.take_length_add_append, List.take_succ_cons, List.filter_append, filter_id hA, List.filter_cons_of_neg (by simp), filter_id hB',
    show A.length + (q + 1) = (A.length + q) + 1 by omega, List.take_succ_cons, List.take_length_add_append]

theorem take_full {t S : Nat} {R : List Nat} (hS : 1 ≤ S) (hl : (R.take S).length = S) (h : t ∉ R.take S) :
    (t :: R.filter (· ≠ t)).take S = t :: (R.take S).dropLast := by
  obtain ⟨q, rfl⟩ : ∃ q, S = q + 1 := ⟨S - 1, by omega⟩
  rw [List.take_succ_cons]
  congr 1
  conv => lhs; rw [← List.take_append_drop (q + 1) R]
  rw [List.filter_append, filter_id h, List.take_append_of_le_length (by omega), List.dropLast_eq_take, hl, Nat.add_sub_cancel]

theorem take_free {t S : Nat} {R : List Nat} (hl : (R.take S).length < S) (h : t ∉ R.take S) : (t :: R.filter (· ≠ t)).take S = t :: R.take S := by
  have hR : R.take S = R := List.take_of_length_le (by rw [List.length_take] at hl; omega)
  rw [hR] at hl h ⊢
  rw [filter_id h, List.take_of_length_le (by simp; omega)]

theorem erase_last {A : List Nat} {n : Nat} (h : (A ++ [n]).Nodup) : (A ++ [n]).erase n = A := by
  have : n ∉ A := fun ha => (List.nodup_append.1 h).2.2 n ha n (by simp) rfl
  rw [List.erase_append_right _ this]; simp

/-! ### One use -/

/-- Between uses. -/
structure Idle (ops : Ops) (c : Cache (List Nat)) (g : Past) (k : Nat) : Prop where
  inv : Inv LruHolds ops c g k
  idle : ∀ n, In c n → c.status n = .freed ∨ c.status n = .managed
  awake : c.starving = false
  room : 1 ≤ c.maxpend

theorem Idle.algo {ops : Ops} {c : Cache (List Nat)} {g : Past} {k : Nat} (h : Idle ops c g k) :
    c.algo.Nodup ∧ ∀ n, n ∈ c.algo ↔ In c n ∧ c.status n = .managed := by
  obtain ⟨L, ⟨l1, -, -⟩, l2, l3⟩ := h.inv.holds
  exact ⟨l1.nodup_iff.2 l2, fun n => by rw [l1.mem_iff, l3]⟩

theorem Idle.changing {ops : Ops} {c : Cache (List Nat)} {g : Past} {k : Nat} (h : Idle ops c g k) : c.changing = [] := by
  refine List.eq_nil_iff_forall_not_mem.2 fun n hn => ?_
  obtain ⟨h1, h2⟩ := (h.inv.ch n).1 hn
  rcases h.idle n h1 with e | e <;> rw [e] at h2 <;> cases h2

theorem Idle.count {ops : Ops} {c : Cache (List Nat)} {g : Past} {k : Nat} (h : Idle ops c g k) :
    (c.freed = [] → c.algo.length = c.size) ∧ (c.freed ≠ [] → c.algo.length < c.size) := by
  obtain ⟨a1, a2⟩ := h.algo
  constructor
  · intro hf
    rw [length_number (p := fun _ => true) (s := c.size) a1 (fun n => by
      rw [a2]
      refine ⟨fun e => ⟨e.1, rfl⟩, fun e => ⟨e.1, ?_⟩⟩
      rcases h.idle n e.1 with e' | e'
      · have := (h.inv.f n).2 ⟨e.1, e'⟩
        rw [hf] at this; cases this
      · exact e')]
    simp
  · intro hf
    obtain ⟨m, l, e⟩ := List.exists_cons_of_ne_nil hf
    have hm := (h.inv.f m).1 (by rw [e]; simp)
    have hnot : m ∉ c.algo := fun hh => by
      have := ((a2 m).1 hh).2
      rw [hm.2] at this; cases this
    have := length_le (l := m :: c.algo) (s := c.size) (List.nodup_cons.2 ⟨hnot, a1⟩) (fun n hn => by
      rcases List.mem_cons.1 hn with rfl | hn
      · exact hm.1
      · exact ((a2 n).1 hn).1)
    rw [List.length_cons] at this
    omega

/-- What `obtain` does to the policy between uses. -/
theorem obtain_idle {ops : Ops} {c : Cache (List Nat)} {g : Past} {k : Nat} (h : Idle ops c g k) (tag : Nat) :
    ∃ r, Cache.obtain lru ops c tag true false = some r ∧ r.2 ≠ 0 ∧ In c r.2 ∧ r.1.starving = false ∧ r.1.maxpend = c.maxpend ∧
      ((c.status r.2 = .managed ∧ c.tag r.2 = tag ∧ r.1.misses = c.misses ∧ r.1.algo = c.algo.erase r.2 ∧ r.1.tag = c.tag ∧ r.1.status = upd c.status r.2 .busy) ∨
       ((∀ m, In c m → c.status m ≠ .freed → c.tag m ≠ tag) ∧ r.1.misses = (c.misses + 1) % W ∧ r.1.tag = upd c.tag r.2 tag ∧ r.1.status = upd c.status r.2 .pending ∧
        ((c.freed ≠ [] ∧ c.status r.2 = .freed ∧ r.1.algo = c.algo) ∨ (c.freed = [] ∧ c.algo = r.1.algo ++ [r.2])))) := by
  obtain ⟨a1, a2⟩ := h.algo
  unfold Cache.obtain
  rw [if_neg (by simp [h.awake])]
  obtain ⟨n, e1, e2⟩ := h.inv.lookup tag true
  rw [e1, Option.bind_some]
  rcases e2 with ⟨e2, e3⟩ | ⟨e2, e3, e4, e5, -⟩
  · rw [if_neg (by simp [e2])]
    have ht : ∀ m, In c m → c.status m ≠ .freed → c.tag m ≠ tag := fun m h1 h2 h3 => by simpa using (e3 m h1 h2 h3).2
    have hp : ¬ c.pending ≥ c.maxpend := by
      rw [h.inv.pend, h.changing]
      have := h.room
      simp; omega
    obtain ⟨i1, -⟩ := h.inv.slot (ops.hash tag)
    unfold miss
    dsimp only
    simp only [Bool.not_true, Bool.false_eq_true, if_false]
    cases hf : c.freed with
    | nil =>
      have hlen := h.count.1 hf
      obtain ⟨b, b1, -, b3⟩ := h.inv.size
      have hne : c.algo ≠ [] := by
        intro e
        rw [e, b3] at hlen
        have := Nat.two_pow_pos b
        rw [List.length_nil] at hlen
        omega
      obtain ⟨A, x, hA⟩ : ∃ A x, c.algo = A ++ [x] := ⟨c.algo.dropLast, c.algo.getLast hne, (List.dropLast_concat_getLast hne).symm⟩
      have hx := (a2 x).1 (by rw [hA]; simp)
      have hst : lru.starving c.algo = false := by
        show c.algo.isEmpty = false
        rw [hA]; simp
      have hob : lru.obtain c.algo = some (x, A) := by
        show c.algo.getLast?.map _ = _
        rw [hA, List.getLast?_concat, Option.map_some, erase_last (hA ▸ a1)]
      rw [hst, Bool.and_false, if_neg (by simp), if_neg hp]
      unfold choose
      simp only [hob, Option.map_some, Option.bind_some]
      unfold assign insert unlink hashDel
      dsimp only
      rw [upd_same, i1]
      refine ⟨_, rfl, Nat.pos_iff_ne_zero.1 hx.1.1, hx.1, rfl, rfl, Or.inr ⟨ht, rfl, rfl, rfl, Or.inr ⟨trivial, hA⟩⟩⟩
    | cons m l =>
      have hm := (h.inv.f m).1 (by rw [hf]; simp)
      rw [List.isEmpty_cons, Bool.false_and, if_neg (by simp), if_neg hp]
      unfold choose
      simp only [Option.bind_some]
      unfold assign insert unlink
      dsimp only
      rw [upd_same, i1]
      refine ⟨_, rfl, Nat.pos_iff_ne_zero.1 hm.1.1, hm.1, rfl, rfl, Or.inr ⟨ht, rfl, rfl, rfl, Or.inl ⟨by simp, hm.2, rfl⟩⟩⟩
  · rw [if_pos e2]
    have hm : c.status n = .managed := (h.idle n e3).resolve_left e4
    have hg : lru.get c.algo n = some (c.algo.erase n) := if_pos ((a2 n).2 ⟨e3, hm⟩)
    unfold hit
    dsimp only
    rw [if_neg (by rw [hm]; decide), if_pos hm, hg]
    refine ⟨_, rfl, e2, e3, ?_, rfl, Or.inl ⟨hm, e5, rfl, rfl, rfl, rfl⟩⟩
    exact h.awake

/-- Committing leaves the policy, the tags and the flags alone. -/
theorem commit_fields {H : Past → List Nat → List Nat → Prop} {ops : Ops} {c : Cache (List Nat)} {g : Past} {k : Nat} (h : Inv H ops c g k) :
    (committed c).algo = c.algo ∧ (committed c).tag = c.tag ∧ (committed c).starving = c.starving ∧ (committed c).maxpend = c.maxpend ∧ (committed c).size = c.size ∧
      (committed c).misses = c.misses := by
  obtain ⟨v, e⟩ := commit_fold c.freed c.changing c rfl h.cnd rfl (fun n hn => by
    have := ((h.ch n).1 hn).2
    exact ⟨fun hh => by rw [((h.f n).1 hh).2] at this; simp at this, fun hh => by rw [((h.u n).1 hh).2] at this; simp at this⟩)
  unfold committed
  rw [e]
  exact ⟨rfl, rfl, rfl, rfl, rfl, rfl⟩

theorem obtained_refs {c : Cache (List Nat)} {g : Past} {tag n : Nat} (hn : n ≠ 0) : (g.obtained c tag n).refs n = g.refs n + 1 := by
  unfold Past.obtained
  rw [if_neg hn]
  split
  · exact upd_same _ _ _
  · split <;> exact upd_same _ _ _

theorem use_ok {ops : Ops} {data : Nat → Nat} (hd : ∀ t, Names ops (data t) t) {c : Cache (List Nat)} {g : Past} {k : Nat} (h : Idle ops c g k) (hk : k + 3 < W)
    {R : List Nat} (hR : R.Nodup) (hL : c.algo.map c.tag = R.take c.size) (tag : Nat) :
    ∃ c' g', use ops data c tag = some c' ∧ Idle ops c' g' (k + 3) ∧ c'.size = c.size ∧ c'.algo.map c'.tag = (tag :: R.filter (· ≠ tag)).take c.size ∧
      c'.misses = if tag ∈ R.take c.size then c.misses else (c.misses + 1) % W := by
  obtain ⟨a1, a2⟩ := h.algo
  have hsz : c.size ≤ W := by
    obtain ⟨b, -, hb, e⟩ := h.inv.size
    rw [e]
    exact Nat.pow_le_pow_right (by decide) (by omega)
  obtain ⟨r, r1, r2, r3, r4, r5, r6⟩ := obtain_idle h tag
  obtain ⟨r', q1, q2, -⟩ := obtain_inv (lru_policy W) h.inv hsz (by omega) true false (hd tag)
  rw [r1] at q1
  cases q1
  rw [if_neg r2] at q2
  have hsize := obtain_size r1
  obtain ⟨c1, hc1⟩ : ∃ c1, ({ r.1 with data := upd r.1.data r.2 (data tag) } : Cache (List Nat)) = c1 := ⟨_, rfl⟩
  have f1 : c1.algo = r.1.algo := by rw [← hc1]
  have f2 : c1.tag = r.1.tag := by rw [← hc1]
  have f3 : c1.status = r.1.status := by rw [← hc1]
  have f4 : c1.starving = false := by rw [← hc1]; exact r4
  have f5 : c1.maxpend = c.maxpend := by rw [← hc1]; exact r5
  have f7 : c1.misses = r.1.misses := by rw [← hc1]
  have f6 : c1.size = c.size := by rw [← hc1]; exact hsize
  rw [hc1] at q2
  obtain ⟨i2, i3⟩ := commit_inv q2
  obtain ⟨m1, m2, m3, m4, m5, m6⟩ := commit_fields q2
  have hin : In (committed c1) r.2 := by
    unfold In; rw [m5, f6]; exact r3
  have hin1 : In c1 r.2 := by unfold In; rw [f6]; exact r3
  have hbusy : (committed c1).status r.2 = .busy := by
    rw [i3, f3]
    rcases r6 with ⟨-, -, -, -, -, e⟩ | ⟨-, -, -, e, -⟩
    · rw [e, upd_same, if_neg (by simp)]
    · rw [e, upd_same, if_pos ⟨rfl, hin1⟩]
  have hother : ∀ m, In c m → m ≠ r.2 → (committed c1).status m = c.status m := by
    intro m hm hne
    have e : c1.status m = c.status m := by
      rw [f3]
      rcases r6 with ⟨-, -, -, -, -, e⟩ | ⟨-, -, -, e, -⟩ <;> rw [e, upd_ne _ _ hne]
    rw [i3, e, if_neg]
    rintro ⟨h1, -⟩
    rcases h.idle m hm with e | e <;> rw [e] at h1 <;> cases h1
  have hg0 : g.refs r.2 = 0 := by
    refine Nat.eq_zero_of_not_pos fun hp => ?_
    have h1 := (h.inv.held r.2 r3).1 hp
    rcases h.idle r.2 r3 with e | e <;> rw [e] at h1 <;> simp at h1
  have hrc : (committed c1).refcnt r.2 = 1 := by
    rw [i2.refcnt r.2 hin, obtained_refs r2, hg0]
  obtain ⟨r', p1, p2, -⟩ := put_inv (lru_policy W) i2 (by rw [m5, f6]; exact hsz) (by omega) hin
  have p1' := p1
  unfold put at p1'
  rw [if_neg (by rw [hbusy]; simp)] at p1'
  dsimp only at p1'
  rw [if_pos (show upd (committed c1).refcnt r.2 (((committed c1).refcnt r.2 + W - 1) % W) r.2 = 0 by rw [upd_same, hrc]; decide)] at p1'
  have hput : ∀ s n, lru.put s n = some (n :: s) := fun _ _ => rfl
  rw [hput, Option.map_some, Option.some.injEq] at p1'
  have g1 : r'.1.algo = r.2 :: r.1.algo := by rw [← p1']; show r.2 :: (committed c1).algo = _; rw [m1, f1]
  have g2 : r'.1.tag = r.1.tag := by rw [← p1']; show (committed c1).tag = _; rw [m2, f2]
  have g3 : r'.1.status = upd (committed c1).status r.2 .managed := by rw [← p1']; rfl
  have g4 : r'.1.starving = false := by rw [← p1']; rfl
  have g5 : r'.1.maxpend = c.maxpend := by rw [← p1']; show (committed c1).maxpend = _; rw [m4, f5]
  have g7 : r'.1.misses = r.1.misses := by rw [← p1']; show (committed c1).misses = _; rw [m6, f7]
  have g6 : r'.1.size = c.size := by rw [put_size p1, m5, f6]
  refine ⟨r'.1, _, ?_, ⟨p2, ?_, g4, by rw [g5]; exact h.room⟩, g6, ?_⟩
  · unfold use
    rw [r1, Option.bind_some, if_neg r2, hc1, p1]
    rfl
  · intro m hm
    have hm' : In c m := by unfold In at hm ⊢; rw [g6] at hm; exact hm
    rw [g3]
    by_cases e : m = r.2
    · rw [e, upd_same]; exact Or.inr rfl
    · rw [upd_ne _ _ e, hother m hm' e]; exact h.idle m hm'
  · rw [g1, g2, g7, List.map_cons]
    have hbig : 1 ≤ c.size := by have := r3.1; have := r3.2; omega
    rcases r6 with ⟨s1, s2, s0, s3, s4, -⟩ | ⟨s1, s0, s2, -, s3⟩
    · have hmem : tag ∈ R.take c.size := by
        rw [← hL]; exact List.mem_map.2 ⟨r.2, (a2 r.2).2 ⟨r3, s1⟩, s2⟩
      refine ⟨?_, by rw [if_pos hmem, s0]⟩
      rw [take_hit hR hmem, ← hL, s3, s4, s2]
      congr 1
      rw [a1.erase_eq_filter, List.filter_map]
      congr 1
      apply List.filter_congr
      intro x hx
      obtain ⟨x1, x2⟩ := (a2 x).1 hx
      by_cases e : x = r.2
      · simp [e, s2]
      · have : c.tag x ≠ tag := fun e' => e (h.inv.uniq x r.2 x1 r3 (by rw [x2]; decide) (by rw [s1]; decide) (e'.trans s2.symm))
        simp [e, this]
    · have hnot : tag ∉ R.take c.size := by
        rw [← hL]
        intro hm
        obtain ⟨x, x1, x2⟩ := List.mem_map.1 hm
        obtain ⟨x3, x4⟩ := (a2 x).1 x1
        exact s1 x x3 (by rw [x4]; decide) x2
      have hmap : ∀ A : List Nat, r.2 ∉ A → A.map (upd c.tag r.2 tag) = A.map c.tag := by
        intro A hA
        apply List.map_congr_left
        intro x hx
        exact upd_ne _ _ fun e => hA (e ▸ hx)
      have hlen : (R.take c.size).length = c.algo.length := by rw [← hL, List.length_map]
      refine ⟨?_, by rw [if_neg hnot, s0]⟩
      rw [s2, upd_same]
      rcases s3 with ⟨t1, t2, t3⟩ | ⟨t1, t2⟩
      · rw [take_free (by rw [hlen]; exact h.count.2 t1) hnot, t3, ← hL, hmap]
        intro hm
        have := ((a2 _).1 hm).2
        rw [t2] at this; cases this
      · rw [take_full hbig (by rw [hlen]; exact h.count.1 t1) hnot, ← hL, t2, List.map_append, List.map_cons, List.map_nil, List.dropLast_concat, hmap]
        intro hm
        rw [t2] at a1
        exact (List.nodup_append.1 a1).2.2 _ hm _ (by simp) rfl

theorem uses_ok {ops : Ops} {data : Nat → Nat} (hd : ∀ t, Names ops (data t) t) {size : BitVec 64} {maxpend : Nat} (hm : 1 ≤ maxpend) {c : Cache (List Nat)}
    (hc : create [] size maxpend = some (some c)) : ∀ past : List Nat, 3 * past.length < W →
    ∃ c' g, uses ops data c past = some c' ∧ Idle ops c' g (3 * past.length) ∧ c'.size = c.size ∧ c'.algo.map c'.tag = (recent past).take c.size ∧
      c'.misses = missed c.size past
  | [], _ => by
    obtain ⟨i1, i2⟩ := create_inv (H := LruHolds) (ops := ops) lru_start hc
    have hf : (∀ n, c.status n = .freed) ∧ c.starving = false ∧ c.maxpend = maxpend ∧ c.misses = 0 := by
      unfold create at hc
      obtain ⟨s, -, e⟩ := Option.map_eq_some_iff.1 hc
      split at e
      · cases e
      · cases e; exact ⟨fun _ => rfl, rfl, rfl, rfl⟩
    exact ⟨c, .none, rfl, ⟨i1, fun n _ => Or.inl (hf.1 n), hf.2.1, by rw [hf.2.2.1]; exact hm⟩, rfl, by rw [i2]; simp [recent], hf.2.2.2⟩
  | t :: past, hk => by
    rw [List.length_cons] at hk
    obtain ⟨c1, g1, e1, j1, s1, l1, w1⟩ := uses_ok hd hm hc past (by omega)
    obtain ⟨c2, g2, e2, j2, s2, l2, w2⟩ := use_ok hd j1 (by omega) (recent_nodup past) (by rw [l1, s1]) t
    exact ⟨c2, g2, by rw [uses, e1, Option.bind_some, e2], by rw [List.length_cons]; exact j2, s2.trans s1, by rw [l2, s1]; rfl, by
      rw [w2, s1, w1, missed]
      have := missed_le c.size past
      split
      · rfl
      · exact Nat.mod_eq_of_lt (by omega)⟩

/-- **C134.** A least-recently-used cache that is used for one entry at a time never refuses, and holds exactly the `size` different tags used
last. -/
theorem lru_holds_recent {ops : Ops} {data : Nat → Nat} (hd : ∀ t, Names ops (data t) t) {size : BitVec 64} {maxpend : Nat} (hm : 1 ≤ maxpend)
    {c : Cache (List Nat)} (hc : create [] size maxpend = some (some c)) (past : List Nat) (hk : 3 * past.length < 2 ^ 64) :
    ∃ c', uses ops data c past = some c' ∧ ∀ tag, Holds ops c' tag ↔ tag ∈ (recent past).take c.size := by
  obtain ⟨c', g, e, j, -, l, -⟩ := uses_ok hd hm hc past hk
  obtain ⟨a1, a2⟩ := j.algo
  refine ⟨c', e, fun tag => ?_⟩
  rw [← l, List.mem_map]
  obtain ⟨n, f1, f2⟩ := j.inv.sound.found tag
  constructor
  · rintro ⟨m, m1, m2⟩
    obtain ⟨h1, h2, h3⟩ := (f2 m m1).1 (Option.some.inj (m2.symm.trans f1))
    refine ⟨m, (a2 m).2 ⟨h1, ?_⟩, h3⟩
    rcases j.idle m h1 with e | e
    · rw [e] at h2; simp at h2
    · exact e
  · rintro ⟨m, m1, m2⟩
    obtain ⟨h1, h2⟩ := (a2 m).1 m1
    have hm0 : m ≠ 0 := by have := h1.1; omega
    have := (f2 m hm0).2 ⟨h1, Or.inr h2, m2⟩
    exact ⟨m, hm0, by rw [f1, this]⟩

/-- **C134.** What a cache holds, a larger one holds too, after any history: making it larger never turns a hit into a miss. -/
theorem lru_inclusion {ops1 ops2 : Ops} {data1 data2 : Nat → Nat} (hd1 : ∀ t, Names ops1 (data1 t) t) (hd2 : ∀ t, Names ops2 (data2 t) t) {size1 size2 : BitVec 64}
    {maxpend1 maxpend2 : Nat} (hm1 : 1 ≤ maxpend1) (hm2 : 1 ≤ maxpend2) {c1 c2 : Cache (List Nat)} (hc1 : create [] size1 maxpend1 = some (some c1))
    (hc2 : create [] size2 maxpend2 = some (some c2)) (hle : c1.size ≤ c2.size) (past : List Nat) (hk : 3 * past.length < 2 ^ 64) :
    ∃ d1 d2, uses ops1 data1 c1 past = some d1 ∧ uses ops2 data2 c2 past = some d2 ∧ ∀ tag, Holds ops1 d1 tag → Holds ops2 d2 tag := by
  obtain ⟨d1, e1, h1⟩ := lru_holds_recent hd1 hm1 hc1 past hk
  obtain ⟨d2, e2, h2⟩ := lru_holds_recent hd2 hm2 hc2 past hk
  refine ⟨d1, d2, e1, e2, fun tag h => (h2 tag).2 ?_⟩
  exact (List.take_subset_take_left _ hle) ((h1 tag).1 h)

/-- **C134.** The count of misses is the number of uses of a tag that was not among the `size` different tags used last. -/
theorem lru_misses {ops : Ops} {data : Nat → Nat} (hd : ∀ t, Names ops (data t) t) {size : BitVec 64} {maxpend : Nat} (hm : 1 ≤ maxpend)
    {c : Cache (List Nat)} (hc : create [] size maxpend = some (some c)) (past : List Nat) (hk : 3 * past.length < 2 ^ 64) :
    ∃ c', uses ops data c past = some c' ∧ c'.misses = missed c.size past := by
  obtain ⟨c', g, e, -, -, -, l⟩ := uses_ok hd hm hc past hk
  exact ⟨c', e, l⟩

theorem missed_mono {s1 s2 : Nat} (h : s1 ≤ s2) : ∀ past, missed s2 past ≤ missed s1 past
  | [] => Nat.le_refl _
  | t :: past => by
    have ih := missed_mono h past
    have this : t ∈ (recent past).take s1 → t ∈ (recent past).take s2 := fun ht => List.take_subset_take_left _ h ht
    unfold missed
    split <;> split <;> first | omega | (rename_i h1 h2; exact absurd (this h2) h1)

/-- **C134.** A larger cache never counts more misses. -/
theorem lru_misses_mono {ops1 ops2 : Ops} {data1 data2 : Nat → Nat} (hd1 : ∀ t, Names ops1 (data1 t) t) (hd2 : ∀ t, Names ops2 (data2 t) t)
    {size1 size2 : BitVec 64} {maxpend1 maxpend2 : Nat} (hm1 : 1 ≤ maxpend1) (hm2 : 1 ≤ maxpend2) {c1 c2 : Cache (List Nat)}
    (hc1 : create [] size1 maxpend1 = some (some c1)) (hc2 : create [] size2 maxpend2 = some (some c2)) (hle : c1.size ≤ c2.size) (past : List Nat)
    (hk : 3 * past.length < 2 ^ 64) :
    ∃ d1 d2, uses ops1 data1 c1 past = some d1 ∧ uses ops2 data2 c2 past = some d2 ∧ d2.misses ≤ d1.misses := by
  obtain ⟨d1, e1, h1⟩ := lru_misses hd1 hm1 hc1 past hk
  obtain ⟨d2, e2, h2⟩ := lru_misses hd2 hm2 hc2 past hk
  exact ⟨d1, d2, e1, e2, by rw [h1, h2]; exact missed_mono hle past⟩

/-- Not vacuous: data that is its own tag, and a cache of two entries that evicts the tag 9. -/
example : (∀ t, Names demoOps (id t) t) ∧ (recent [5, 7, 5, 9]).take 2 = [5, 7] ∧ missed 2 [5, 7, 5, 9] = 3 := ⟨demo_names, by decide, by decide⟩

example : (start.bind fun c => (uses demoOps id c [5, 7, 5, 9]).map fun c =>
      (c.size, c.misses, [5, 7, 9].map fun t => (find demoOps c t).map fun n => decide (n ≠ 0))) =
    some (2, 3, [some true, some true, some false]) := by decide +kernel

end Bfdev.Cache

import Verif.Radix.Walk
/-! Property theorems for the radix tree (C27, C79). -/
namespace Bfdev.Radix

/-- What every history keeps. -/
structure Inv (mem : Nat → Bool) (r : Root) (M : Sparse) : Prop where
  good : Good r
  get : ∀ o, r.get o = M o
  owned : Owned mem r
  tidy : (∀ k, mem k = true) → r.Tidy

theorem Run.inv {mem : Nat → Bool} {r : Root} {M : Sparse} (h : Run mem r M) : Inv mem r M := by
  induction h with
  | init => exact ⟨Good.none', fun _ => rfl, fun _ => rfl, fun _ => trivial⟩
  | @alloc r M o r' p _ ho he ih =>
    obtain ⟨r1, p1, e, h1, h2, h3, _, _⟩ := alloc_ok mem ih.good ho
    rw [e] at he
    cases he
    refine ⟨h1, fun x => ?_, alloc_ids ih.good ho e ih.owned, fun hm => alloc_tidy hm ih.good ho e (ih.tidy hm)⟩
    by_cases hx : x = o
    · subst hx; rw [set_same]; exact h3 p rfl
    · rw [set_other _ _ hx, h2 x hx, ih.get]
  | @refused r M o r' _ ho he ih =>
    obtain ⟨r1, p1, e, h1, h2, _, h4, _⟩ := alloc_ok mem ih.good ho
    rw [e] at he
    cases he
    refine ⟨h1, fun x => ?_, alloc_ids ih.good ho e ih.owned, fun hm => alloc_tidy hm ih.good ho e (ih.tidy hm)⟩
    by_cases hx : x = o
    · subst hx; rw [(h4 rfl).1, ← ih.get, (h4 rfl).2.1]
    · rw [h2 x hx, ih.get]
  | @free r M o r' e' _ hc he ih =>
    obtain ⟨r1, e1, e, h1, _, h2, h3, _⟩ := free_ok ih.good hc
    rw [e] at he
    cases he
    refine ⟨h1, fun x => ?_, free_ids ih.good hc e ih.owned, fun hm => free_tidy ih.good hc e (ih.tidy hm)⟩
    by_cases hx : x = o
    · subst hx; rw [set_same]; exact h3
    · rw [set_other _ _ hx, h2 x hx, ih.get]
  | @release r M _ ih =>
    obtain ⟨l, n | n, nx, fr⟩ := r
    · exact ⟨Good.none', fun _ => rfl, release_ids ih.owned, fun _ => trivial⟩
    · exact ⟨Good.none', fun _ => rfl, release_ids ih.owned, fun _ => trivial⟩

theorem Inv.inside {mem : Nat → Bool} {r : Root} {M : Sparse} (h : Inv mem r M) {o : Nat} (ho : M o ≠ none) :
    ∃ l n nx fr, r = ⟨l, some n, nx, fr⟩ ∧ o < 2 ^ shift l ∧ l ≤ 11 ∧ ∀ x, x < 2 ^ shift l → cell l n x = M x := by
  obtain ⟨l, n | n, nx, fr⟩ := r
  · rw [← h.get, get_none] at ho; exact absurd rfl ho
  · refine ⟨l, n, nx, fr, rfl, ?_, h.good.level, fun x hx => ?_⟩
    · refine Classical.byContradiction fun hn => ho ?_
      rw [← h.get, get_some, if_neg hn]
    · rw [← h.get, get_some, if_pos hx]

theorem Inv.above {mem : Nat → Bool} {l n nx fr} {M : Sparse} (h : Inv mem ⟨l, some n, nx, fr⟩ M) {o : Nat} (ho : ¬ o < 2 ^ shift l) : M o = none := by
  rw [← h.get, get_some, if_neg ho]

theorem Inv.clear {mem : Nat → Bool} {r : Root} {M : Sparse} (h : Inv mem r M) {o : Nat} (ho : M o ≠ none) : Clear r o := by
  obtain ⟨l, n, nx, fr, rfl, hlt, _, _⟩ := h.inside ho
  exact Or.inr (by have := (log2_lt_shift (shift_pos l)).2 hlt; dsimp only; omega)

/-- **C27.** Searching finds what the history put at the offset, and nothing else, unless the offset meets the wrong bound (`Clear`).
Missing: the offsets excluded by `Clear`, for which `alias_violated` and `bounds_violated` show that the property fails, and elements at
`2^63` and above (`high_violated`). -/
theorem find_partial {mem : Nat → Bool} {r : Root} {M : Sparse} (h : Run mem r M) {o : Nat} (hc : Clear r o) : find r o = some (M o) := by
  rw [find_ok h.inv.good hc, h.inv.get]

/-- **C27.** An element is always found. -/
theorem find_present {mem : Nat → Bool} {r : Root} {M : Sparse} (h : Run mem r M) {o : Nat} {p : Ptr} (hp : M o = some p) :
    find r o = some (some p) := by
  rw [← hp]; exact find_partial h (h.inv.clear (by rw [hp]; exact fun h => by cases h))

theorem Inv.block {mem : Nat → Bool} {r : Root} {M : Sparse} (h : Inv mem r M) {x y : Nat} {p q : Ptr} (hx : M x = some p) (hy : M y = some q)
    (hpq : p.1 = q.1) : x / 256 = y / 256 := by
  obtain ⟨l, n, nx, fr, rfl, hlt, _, hc⟩ := h.inside (o := x) (by rw [hx]; exact fun h => by cases h)
  have hlt' : y < 2 ^ shift l := Classical.byContradiction fun hn => by rw [h.above hn] at hy; cases hy
  refine cell_block l n x y p q ?_ hlt hlt' (by rw [hc x hlt, hx]) (by rw [hc y hlt', hy]) hpq
  rw [List.nodup_iff_count]
  intro a
  have h1 := h.owned a
  have h2 : (granted mem nx).Nodup := List.Pairwise.filter _ List.nodup_range
  have h3 := List.nodup_iff_count.1 h2 a
  dsimp only [Root.ids] at h1
  omega

theorem Inv.place {mem : Nat → Bool} {r : Root} {M : Sparse} (h : Inv mem r M) {x : Nat} {p : Ptr} (hx : M x = some p) :
    p.1 ∈ r.ids ∧ p.2 = x % 256 := by
  obtain ⟨l, n, nx, fr, rfl, hlt, _, hc⟩ := h.inside (o := x) (by rw [hx]; exact fun h => by cases h)
  exact cell_mem l n x p hlt (by rw [hc x hlt, hx])

/-- **C27.** Elements at different offsets are at different places. -/
theorem places_distinct {mem : Nat → Bool} {r : Root} {M : Sparse} (h : Run mem r M) {x y : Nat} {p : Ptr} (hx : M x = some p) (hy : M y = some p) :
    x = y := by
  have h1 := h.inv.block hx hy rfl
  have h2 := (h.inv.place hx).2
  have h3 := (h.inv.place hy).2
  omega

/-- **C27.** Allocating gives the place of the element if there is one, a place not in use if there is none, and fails only if the allocator
refused memory. -/
theorem alloc_result {mem : Nat → Bool} {r : Root} {M : Sparse} (h : Run mem r M) {o : Nat} (ho : o < 2 ^ 63) :
    ∃ r' p, alloc mem r o = some (r', p) ∧
      (∀ q, M o = some q → p = some q) ∧
      (∀ q, p = some q → M o = none → ∀ x, M x ≠ some q) ∧
      (p = none → ∃ k, r.next ≤ k ∧ k < r'.next ∧ mem k = false) := by
  obtain ⟨r', p, e, h1, h2, h3, h4, h5⟩ := alloc_ok mem h.inv.good ho
  refine ⟨r', p, e, fun q hq => h5 q (by rw [h.inv.get, hq]), fun q hq hno x hx => ?_, fun hp => (h4 hp).2.2⟩
  subst hq
  have hr := Run.alloc h ho e
  have hne : x ≠ o := by rintro rfl; rw [hno] at hx; cases hx
  exact hne (places_distinct hr (p := q) (by rw [set_other _ _ hne, hx]) (set_same _ _ _))

/-- **C27.** Freeing succeeds, and reports a missing element only if it is missing, unless the offset meets the wrong bound. Missing: as for
`find_partial`; see `free_alias_violated`. -/
theorem free_partial {mem : Nat → Bool} {r : Root} {M : Sparse} (h : Run mem r M) {o : Nat} (hc : Clear r o) :
    ∃ r' e, free r o = some (r', e) ∧ (e = 0 ∨ e = -2 ∧ M o = none) := by
  obtain ⟨r', e, h1, _, _, _, _, h2⟩ := free_ok h.inv.good hc
  exact ⟨r', e, h1, by rw [h.inv.get] at h2; exact h2⟩

/-- **C27.** An element can always be freed. -/
theorem free_present {mem : Nat → Bool} {r : Root} {M : Sparse} (h : Run mem r M) {o : Nat} (ho : M o ≠ none) : ∃ r', free r o = some (r', 0) := by
  obtain ⟨r', e, h1, h2⟩ := free_partial h (h.inv.clear ho)
  rcases h2 with h2 | ⟨_, h2⟩
  · subst h2; exact ⟨r', h1⟩
  · exact absurd h2 ho

/-- **C27.** Nodes are given back at most once, never while they hold an element, and releasing the tree gives back all that were handed out. -/
theorem nodes_released {mem : Nat → Bool} {r : Root} {M : Sparse} (h : Run mem r M) :
    r.freed.Nodup ∧ (∀ a, a ∈ r.freed → a < r.next ∧ mem a = true) ∧ (∀ o p, M o = some p → p.1 ∉ r.freed) ∧
      (release r).freed.Perm ((List.range r.next).filter mem) := by
  have hn : (granted mem r.next).Nodup := List.Pairwise.filter _ List.nodup_range
  have hc := h.inv.owned
  refine ⟨?_, fun a ha => ?_, fun o p hp hm => ?_, ?_⟩
  · rw [List.nodup_iff_count]
    intro a
    have h1 := hc a
    have h3 := List.nodup_iff_count.1 hn a
    omega
  · have h1 := hc a
    have h2 := List.count_pos_iff.2 ha
    have h3 : a ∈ granted mem r.next := List.count_pos_iff.1 (by omega)
    unfold granted at h3
    rw [List.mem_filter, List.mem_range] at h3
    exact h3
  · have h1 := hc p.1
    have h2 := List.count_pos_iff.2 hm
    have h3 := List.count_pos_iff.2 (h.inv.place hp).1
    have h4 := List.nodup_iff_count.1 hn p.1
    omega
  · have := release_ids h.inv.owned
    obtain ⟨l, n | n, nx, fr⟩ := r
    · refine perm_count.2 fun y => ?_
      have := this y
      dsimp only [release, Root.ids] at this ⊢
      rw [List.count_nil] at this
      unfold granted at this
      omega
    · refine perm_count.2 fun y => ?_
      have := this y
      dsimp only [release, Root.ids] at this ⊢
      rw [List.count_nil] at this
      unfold granted at this
      omega

theorem chargeLoop_ok (mem : Nat → Bool) (o stop : Nat) (hs : stop ≤ 2 ^ 63) : ∀ (fuel : Nat) (r : Root) (M : Sparse) (k : Nat), Run mem r M →
    stop - (o + 256 * k) + 256 ≤ 256 * fuel → ∃ r' e M', chargeLoop mem fuel r (o + 256 * k) stop = some (r', e) ∧ Run mem r' M' ∧
      (e = 0 ∨ e = -12) ∧ (e = 0 → ∀ j, k ≤ j → o + 256 * j < stop → M' (o + 256 * j) ≠ none) ∧ (∀ x p, M x = some p → M' x = some p) ∧
      (∀ x, M' x ≠ none → M x ≠ none ∨ ∃ j, k ≤ j ∧ x = o + 256 * j ∧ x < stop) := by
  intro fuel
  induction fuel with
  | zero =>
    intro r M k hr hf
    omega
  | succ fuel ih =>
    intro r M k hr hf
    unfold chargeLoop
    by_cases hlt : o + 256 * k < stop
    · rw [if_pos hlt]
      have ho : o + 256 * k < 2 ^ 63 := by omega
      obtain ⟨r1, p, e1, a1, a2, _⟩ := alloc_result hr ho
      rw [e1]
      cases p with
      | none =>
        refine ⟨r1, -12, M, rfl, Run.refused hr ho e1, Or.inr rfl, by intro h; omega, fun x p h => h, fun x h => Or.inl h⟩
      | some p =>
        have hr1 := Run.alloc hr ho e1
        have hmod : (o + 256 * k + 256) % 2 ^ 64 = o + 256 * (k + 1) := by
          rw [Nat.mod_eq_of_lt (by omega)]; omega
        obtain ⟨r', e, M', b1, b2, b3, b4, b5, b6⟩ := ih r1 _ (k + 1) hr1 (by omega)
        have hp : M' (o + 256 * k) = some p := b5 _ p (set_same _ _ _)
        refine ⟨r', e, M', ?_, b2, b3, ?_, ?_, ?_⟩
        · show chargeLoop mem fuel r1 ((o + 256 * k + 256) % 2 ^ 64) stop = _
          rw [hmod]; exact b1
        · intro he j hj hjs
          by_cases hjk : j = k
          · subst hjk; rw [hp]; exact fun h => by cases h
          · exact b4 he j (by omega) hjs
        · intro x q hq
          refine b5 x q ?_
          by_cases hx : x = o + 256 * k
          · rw [hx, set_same]; rw [hx] at hq; exact a1 q hq
          · rw [set_other _ _ hx]; exact hq
        · intro x hx
          rcases b6 x hx with h | ⟨j, j1, j2, j3⟩
          · by_cases hx : x = o + 256 * k
            · exact Or.inr ⟨k, Nat.le_refl _, hx, by omega⟩
            · rw [set_other _ _ hx] at h; exact Or.inl h
          · exact Or.inr ⟨j, by omega, j2, j3⟩
    · rw [if_neg hlt]
      exact ⟨r, 0, M, rfl, hr, Or.inl rfl, by intro _ j hj hjs; omega, fun x p h => h, fun x h => Or.inl h⟩

/-- **C27.** Charging a range allocates an element in steps of a block from its beginning, leaves all others alone, and is one of the
histories considered. Missing: ranges that end above `2^63`. -/
theorem charge_partial {mem : Nat → Bool} {r : Root} {M : Sparse} (h : Run mem r M) {o size : Nat} (hs : o + size ≤ 2 ^ 63) :
    ∃ r' e M', charge mem r o size = some (r', e) ∧ Run mem r' M' ∧ (e = 0 ∨ e = -12) ∧
      (e = 0 → ∀ j, 256 * j < size → M' (o + 256 * j) ≠ none) ∧ (∀ x p, M x = some p → M' x = some p) ∧
      (∀ x, M' x ≠ none → M x ≠ none ∨ ∃ j, x = o + 256 * j ∧ 256 * j < size) := by
  unfold charge
  rw [if_neg (by omega)]
  obtain ⟨r', e, M', b1, b2, b3, b4, b5, b6⟩ := chargeLoop_ok mem o (o + size) hs (size / 256 + 2) r M 0 h (by omega)
  refine ⟨r', e, M', b1, b2, b3, fun he j hj => b4 he j (by omega) (by omega), b5, fun x hx => ?_⟩
  rcases b6 x hx with h | ⟨j, _, j2, j3⟩
  · exact Or.inl h
  · exact Or.inr ⟨j, j2, by omega⟩

/-- **C27.** A range that ends behind the address space is refused. -/
theorem charge_overflow (mem : Nat → Bool) (r : Root) {o size : Nat} (h : 2 ^ 64 ≤ o + size) : charge mem r o size = some (r, -75) := by
  unfold charge; rw [if_pos h]

/-! ### Steps -/

/-- **C79.** The first element, if there is one below 256 or none at all. Missing: trees whose first block is empty and others are not,
see `first_violated`; histories in which memory was refused, see `refused_violated`. -/
theorem first_partial {mem : Nat → Bool} (hm : ∀ k, mem k = true) {r : Root} {M : Sparse} (h : Run mem r M) :
    ((∀ o, M o = none) → first r = some none) ∧
    ∀ o p, M o = some p → o < 256 → (∀ x, x < o → M x = none) → first r = some (some (p, o)) := by
  have hi := h.inv
  obtain ⟨l, n | n, nx, fr⟩ := r
  · refine ⟨fun _ => rfl, fun o p ho => ?_⟩
    rw [← hi.get, get_none] at ho; cases ho
  · obtain ⟨leaf, g1, g2⟩ := leftMost_low l n (hi.tidy hm)
    have hcell : ∀ x, x < 256 → M x = if leaf.bits x then some (leaf.id, x) else none := by
      intro x hx
      have hxl : x < 2 ^ shift l := Nat.lt_of_lt_of_le hx (Nat.le_of_dvd (pow_pos' _) (dvd_shift l))
      rw [← g2 x hx, ← hi.get, get_some, if_pos hxl]
    unfold first
    dsimp only
    rw [g1]
    dsimp only
    refine ⟨fun hn => ?_, fun o p ho hlt hmin => ?_⟩
    · rcases nextBit_spec leaf 0 with ⟨k1, _⟩ | ⟨k1, _, k2, _⟩
      · rw [if_pos k1]
      · have := hcell _ k1
        rw [hn, if_pos k2] at this; cases this
    · have hb : leaf.bits o = true ∧ p = (leaf.id, o) := by
        have := hcell o hlt
        rw [ho] at this
        split at this
        · rename_i hb; cases this; exact ⟨hb, rfl⟩
        · cases this
      have hz : nextBit leaf 0 = o := by
        rcases nextBit_spec leaf 0 with ⟨_, k1⟩ | ⟨k1, _, k2, k3⟩
        · rw [k1 o (by omega) hlt] at hb; cases hb.1
        · rcases Nat.lt_trichotomy (nextBit leaf 0) o with e | e | e
          · have := hcell _ k1
            rw [hmin _ e, if_pos k2] at this; cases this
          · exact e
          · rw [k3 o (by omega) e] at hb; cases hb.1
      rw [hz, if_neg (by omega), hb.2, Nat.zero_or]

theorem last_or {m : Nat} {leaf : Leaf} (h1 : lastBit leaf = m % 256) : 0 ||| m / 256 * 256 ||| lastBit leaf = m := by
  rw [Nat.zero_or, h1, Nat.mul_comm]
  have := Nat.two_pow_add_eq_or_of_lt (i := 8) (b := m % 256) (Nat.mod_lt _ (by omega)) (m / 256)
  have e : (256 : Nat) = 2 ^ 8 := rfl
  rw [e] at this ⊢
  rw [← this]
  exact Nat.div_add_mod _ _

/-- **C79.** The last element, as long as no memory was refused (see `refused_violated`). -/
theorem last_partial {mem : Nat → Bool} (hm : ∀ k, mem k = true) {r : Root} {M : Sparse} (h : Run mem r M) :
    ((∀ o, M o = none) → last r = some none) ∧
    ∀ o p, M o = some p → (∀ x, o < x → M x = none) → last r = some (some (p, o)) := by
  have hi := h.inv
  obtain ⟨l, n | n, nx, fr⟩ := r
  · refine ⟨fun _ => rfl, fun o p ho => ?_⟩
    rw [← hi.get, get_none] at ho; cases ho
  · obtain ⟨leaf, m, g1, g2, g3⟩ := rightMost_spec l true n 0 (hi.tidy hm)
    have hcell : ∀ x, x < 2 ^ shift l → cell l n x = M x := by
      intro x hx; rw [← hi.get, get_some, if_pos hx]
    unfold last
    dsimp only
    rw [g1]
    dsimp only
    rcases g3 with ⟨k1, k2, k3⟩ | ⟨k1, _, k3⟩
    · rw [if_neg (by omega)]
      have hp := (cell_mem l n m _ g2 k2).2
      dsimp only at hp
      rw [last_or hp]
      rw [hcell m g2] at k2
      refine ⟨fun hn => ?_, fun o p ho hmax => ?_⟩
      · rw [hn] at k2; cases k2
      · have hol : o < 2 ^ shift l := Classical.byContradiction fun hn => by rw [hi.above hn] at ho; cases ho
        rcases Nat.lt_trichotomy m o with e | e | e
        · have := k3 o e hol
          rw [hcell o hol, ho] at this; cases this
        · subst e
          rw [ho] at k2; cases k2; rfl
        · rw [hmax m e] at k2; cases k2
    · rw [if_pos k1]
      refine ⟨fun _ => rfl, fun o p ho _ => ?_⟩
      have hol : o < 2 ^ shift l := Classical.byContradiction fun hn => by rw [hi.above hn] at ho; cases ho
      have := k3 o hol
      rw [hcell o hol, ho] at this; cases this

/-- **C79.** A step up from an element gives nothing if there is none above, and the next one if there is. The pointer is always that of
the next element; the offset is right if both are in the same 8192 bytes. Missing: the offset of the others, see `next_violated`; histories
in which memory was refused. -/
theorem next_partial {mem : Nat → Bool} (hm : ∀ k, mem k = true) {r : Root} {M : Sparse} (h : Run mem r M) {o : Nat} (ho : M o ≠ none) :
    ((∀ x, o < x → M x = none) → next r o = some none) ∧
    ∀ o' p, IsNext M o o' → M o' = some p →
      ∃ stored, next r o = some (some (p, stored)) ∧ (o' / 8192 = o / 8192 → stored = o') := by
  have hi := h.inv
  obtain ⟨l, n, nx, fr, rfl, hlt, hl, hcell⟩ := hi.inside ho
  have hlog := (log2_lt_shift (shift_pos l)).2 hlt
  have hs := nextIn_spec l true n o o (hi.tidy hm) (Nat.mod_eq_of_lt hlt) (by rw [hcell o hlt]; exact ho)
  unfold next stepWith
  dsimp only
  rw [if_neg (by omega), if_neg (by omega)]
  generalize nextIn l n o o = s at hs ⊢
  cases s with
  | ub => exact hs.elim
  | absent => exact hs.elim
  | up =>
    refine ⟨fun _ => rfl, fun o' p hn hp => ?_⟩
    have hol : o' < 2 ^ shift l := Classical.byContradiction fun hn => by rw [hi.above hn] at hp; cases hp
    have := hs o' hn.1 hol
    rw [hcell o' hol, hp] at this; cases this
  | found q o1 =>
    obtain ⟨m, k1, k2, k3, k4, k5⟩ := hs
    rw [hcell m k2] at k3
    refine ⟨fun hn => ?_, fun o' p hn hp => ?_⟩
    · rw [hn m k1] at k3; cases k3
    · have : m = o' := by
        rcases Nat.lt_trichotomy m o' with e | e | e
        · rw [hn.2.2 m k1 e] at k3; cases k3
        · exact e
        · have := k4 o' hn.1 e
          rw [hcell o' (by omega), hp] at this; cases this
      subst this
      rw [hp] at k3; cases k3
      exact ⟨o1, rfl, fun e => by have := k5 e; omega⟩

/-- **C79.** A step down from an element gives the previous one if there is one, and nothing if there is none and the element is below 256.
The offset is right if both are in the same 8192 bytes. Missing: the offset of the others; the step down from the lowest element when it is
above 255, see `prev_violated`; histories in which memory was refused. -/
theorem prev_partial {mem : Nat → Bool} (hm : ∀ k, mem k = true) {r : Root} {M : Sparse} (h : Run mem r M) {o : Nat} (ho : M o ≠ none) :
    ((∀ x, x < o → M x = none) → o < 256 → prev r o = some none) ∧
    ∀ o' p, IsPrev M o o' → M o' = some p →
      ∃ stored, prev r o = some (some (p, stored)) ∧ (o' / 8192 = o / 8192 → stored = o') := by
  have hi := h.inv
  obtain ⟨l, n, nx, fr, rfl, hlt, hl, hcell⟩ := hi.inside ho
  have hlog := (log2_lt_shift (shift_pos l)).2 hlt
  have hs := prevIn_spec l true n o o (hi.tidy hm) (Nat.mod_eq_of_lt hlt) (by rw [hcell o hlt]; exact ho)
  unfold prev stepWith
  dsimp only
  rw [if_neg (by omega), if_neg (by omega)]
  refine ⟨fun hn h256 => ?_, ?_⟩
  · rw [prevIn_low l n o o h256 (by rw [hcell o hlt]; exact ho) fun x hx => by rw [hcell x (by omega)]; exact hn x hx]
  · generalize prevIn l n o o = s at hs ⊢
    intro o' p hn hp
    have hol : o' < 2 ^ shift l := Nat.lt_trans hn.1 hlt
    cases s with
    | ub => exact hs.elim
    | absent => exact hs.elim
    | up =>
      have := hs o' hn.1
      rw [hcell o' hol, hp] at this; cases this
    | found q o1 =>
      rcases hs with ⟨m, k1, k3, k4, k5⟩ | ⟨_, k⟩
      · rw [hcell m (by omega)] at k3
        have : m = o' := by
          rcases Nat.lt_trichotomy m o' with e | e | e
          · have := k4 o' e hn.1
            rw [hcell o' (by omega), hp] at this; cases this
          · exact e
          · rw [hn.2.2 m e k1] at k3; cases k3
        subst this
        rw [hp] at k3; cases k3
        exact ⟨o1, rfl, fun e => by have := k5 e; omega⟩
      · have := k o' hn.1
        rw [hcell o' hol, hp] at this; cases this

/-! ### Elements of more than a byte -/

theorem pow2_dvd : ∀ c, c < 257 → pow2Check c = true → c ∣ 256 := by decide +kernel

theorem packed_le {i k c B : Nat} (hk : 0 < k) (hc : c ≤ B) : i / k * B + i % k * c ≤ i * B := by
  have h3 : i % k * c ≤ i % k * B := Nat.mul_le_mul_left _ hc
  have h4 : i / k * B ≤ k * (i / k) * B := Nat.mul_le_mul_right _ (Nat.le_mul_of_pos_left _ hk)
  have h5 : (k * (i / k) + i % k) * B = i * B := by rw [Nat.div_add_mod]
  rw [Nat.add_mul] at h5
  omega

theorem offset_fits {i cells : Nat} (h0 : 0 < cells) (h1 : cells ≤ 256) (hw : i * 256 < 2 ^ 64) :
    radixOffset i cells % 256 + cells ≤ 256 ∧
    ∃ a b, radixOffset i cells / 256 = a ∧ radixOffset i cells % 256 = b * cells ∧ i = a * (256 / cells) + b ∧ b < 256 / cells := by
  have hn : 0 < 256 / cells := Nat.div_pos h1 h0
  have hb : i % (256 / cells) < 256 / cells := Nat.mod_lt _ hn
  have hle : 256 / cells * cells ≤ 256 := Nat.div_mul_le_self _ _
  have hfit : i % (256 / cells) * cells + cells ≤ 256 := by
    have := Nat.mul_le_mul_right cells (show i % (256 / cells) + 1 ≤ 256 / cells from hb)
    rw [Nat.add_mul, Nat.one_mul] at this
    omega
  have hq : i / (256 / cells) ≤ i := Nat.div_le_self _ _
  have key : radixOffset i cells = i / (256 / cells) * 256 + i % (256 / cells) * cells := by
    have hdm := Nat.div_add_mod i (256 / cells)
    unfold radixOffset
    generalize 2 ^ 64 = W at hw ⊢
    split
    · rename_i hp
      obtain ⟨k, hk⟩ := pow2_dvd cells (by omega) hp
      have hk2 : 256 / cells = k := by rw [hk]; exact Nat.mul_div_cancel_left _ h0
      rw [hk2] at hdm ⊢
      have e : i * cells = i / k * 256 + i % k * cells := by
        calc i * cells = (k * (i / k) + i % k) * cells := by rw [hdm]
          _ = i / k * (cells * k) + i % k * cells := by rw [Nat.add_mul]; congr 1; rw [Nat.mul_comm k, Nat.mul_assoc, Nat.mul_comm k]
          _ = _ := by rw [← hk]
      rw [e, Nat.mod_eq_of_lt]
      rw [← e]
      have := Nat.mul_le_mul_left i h1
      omega
    · rename_i hp
      rw [Nat.mod_eq_of_lt]
      exact Nat.lt_of_le_of_lt (packed_le hn h1) hw
  rw [key]
  have e1 : (i / (256 / cells) * 256 + i % (256 / cells) * cells) % 256 = i % (256 / cells) * cells := by
    generalize i % (256 / cells) * cells = c at hfit
    omega
  have e2 : (i / (256 / cells) * 256 + i % (256 / cells) * cells) / 256 = i / (256 / cells) := by
    generalize i % (256 / cells) * cells = c at hfit
    omega
  refine ⟨by rw [e1]; exact hfit, i / (256 / cells), i % (256 / cells), e2, e1, ?_, hb⟩
  rw [Nat.mul_comm]; exact (Nat.div_add_mod _ _).symm

/-- **C27.** Elements of up to 256 bytes stored under different indices lie inside their blocks and do not overlap. -/
theorem elements_disjoint {mem : Nat → Bool} {r : Root} {M : Sparse} (h : Run mem r M) {cells i j : Nat} {p q : Ptr} (h0 : 0 < cells) (h1 : cells ≤ 256)
    (hi : i * 256 < 2 ^ 64) (hj : j * 256 < 2 ^ 64) (hij : i ≠ j) (hp : M (radixOffset i cells) = some p) (hq : M (radixOffset j cells) = some q) :
    p.2 + cells ≤ 256 ∧ (p.1 ≠ q.1 ∨ p.2 + cells ≤ q.2 ∨ q.2 + cells ≤ p.2) := by
  obtain ⟨f1, a, b, a1, a2, a3, a4⟩ := offset_fits h0 h1 hi
  obtain ⟨g1, c, d, b1, b2, b3, b4⟩ := offset_fits h0 h1 hj
  have p2 := (h.inv.place hp).2
  have q2 := (h.inv.place hq).2
  refine ⟨by omega, ?_⟩
  by_cases e : p.1 = q.1
  · have hblk := h.inv.block hp hq e
    have hac : a = c := by omega
    subst hac
    have hbd : b ≠ d := by rintro rfl; exact hij (by rw [a3, b3])
    rw [p2, q2, a2, b2]
    rcases Nat.lt_or_gt_of_ne hbd with hlt | hlt
    · have := Nat.mul_le_mul_right cells (show b + 1 ≤ d from hlt)
      rw [Nat.add_mul, Nat.one_mul] at this
      exact Or.inr (Or.inl this)
    · have := Nat.mul_le_mul_right cells (show d + 1 ≤ b from hlt)
      rw [Nat.add_mul, Nat.one_mul] at this
      exact Or.inr (Or.inr this)
  · exact Or.inl e

/-- **C79.** The index of an element is recovered from its offset if the size is a power of two. Missing: other sizes, see
`index_violated`. -/
theorem index_partial {i cells : Nat} (hc : pow2Check cells = true) (h1 : i * cells < 2 ^ 64) : radixIndex (radixOffset i cells) cells = i := by
  unfold radixIndex radixOffset
  generalize 2 ^ 64 = W at h1 ⊢
  rw [if_pos hc, if_pos hc, Nat.mod_eq_of_lt h1, Nat.mul_div_cancel]
  refine Nat.pos_of_ne_zero ?_
  rintro rfl
  cases hc

/-! ### Where the code does not do what is expected -/

/-- A history of calls that all succeed. -/
inductive Call where
  | alloc (o : Nat)
  | free (o : Nat)

/-- The tree and the sparse array after the calls. -/
def exec (mem : Nat → Bool) : List Call → Option (Root × Sparse)
  | [] => some (init, fun _ => none)
  | .alloc o :: cs =>
    match exec mem cs with
    | none => none
    | some (r, M) =>
      if o < 2 ^ 63 then
        match alloc mem r o with
        | none => none
        | some (r', none) => some (r', M)
        | some (r', some p) => some (r', set M o (some p))
      else none
  | .free o :: cs =>
    match exec mem cs with
    | none => none
    | some (r, M) =>
      if Clear r o then
        match free r o with
        | none => none
        | some (r', _) => some (r', set M o none)
      else none

theorem exec_run (mem : Nat → Bool) : ∀ (cs : List Call) (r : Root) (M : Sparse), exec mem cs = some (r, M) → Run mem r M := by
  intro cs
  induction cs with
  | nil => intro r M h; cases h; exact Run.init
  | cons c cs ih =>
    intro r M h
    cases c with
    | alloc o =>
      unfold exec at h
      split at h
      · cases h
      · rename_i r0 M0 he
        have h0 := ih r0 M0 he
        split at h
        · rename_i ho
          split at h
          · cases h
          · rename_i r' ha; cases h; exact Run.refused h0 ho ha
          · rename_i r' p ha; cases h; exact Run.alloc h0 ho ha
        · cases h
    | free o =>
      unfold exec at h
      split at h
      · cases h
      · rename_i r0 M0 he
        have h0 := ih r0 M0 he
        split at h
        · rename_i hc
          split at h
          · cases h
          · rename_i r' e ha; cases h; exact Run.free h0 hc ha
        · cases h

/-- A property of the state after some calls holds of a reachable state. -/
theorem exec_ex {mem : Nat → Bool} (cs : List Call) (P : Root → Sparse → Bool) (h : (exec mem cs).any (fun t => P t.1 t.2) = true) :
    ∃ r M, Run mem r M ∧ P r M = true := by
  cases he : exec mem cs with
  | none => rw [he] at h; cases h
  | some t => obtain ⟨r, M⟩ := t; rw [he] at h; exact ⟨r, M, exec_run mem cs r M he, h⟩

/-- With only element 0 in the tree, searching at 256 reads behind the leaf. -/
theorem bounds_violated : ∃ r M, Run (fun _ => true) r M ∧ find r 256 = none := by
  obtain ⟨r, M, h, hp⟩ := exec_ex (mem := fun _ => true) [.alloc 0] (fun r _ => decide (find r 256 = none)) (by decide +kernel)
  exact ⟨r, M, h, of_decide_eq_true hp⟩

/-- With elements 0 and 256 in the tree, element 0 is also found at 8192. -/
theorem alias_violated : ∃ r M, Run (fun _ => true) r M ∧ M 8192 = none ∧ M 0 ≠ none ∧ find r 8192 = some (M 0) := by
  obtain ⟨r, M, h, hp⟩ := exec_ex (mem := fun _ => true) [.alloc 256, .alloc 0]
    (fun r M => decide (M 8192 = none ∧ M 0 ≠ none ∧ find r 8192 = some (M 0))) (by decide +kernel)
  exact ⟨r, M, h, of_decide_eq_true hp⟩

/-- … and freeing at 8192, where nothing is, removes element 0. -/
theorem free_alias_violated : ∃ r M r', Run (fun _ => true) r M ∧ M 8192 = none ∧ M 0 ≠ none ∧ free r 8192 = some (r', 0) ∧ find r' 0 = some none := by
  obtain ⟨r, M, h, hp⟩ := exec_ex (mem := fun _ => true) [.alloc 256, .alloc 0]
    (fun r M => decide (M 8192 = none ∧ M 0 ≠ none) && (free r 8192).any fun (t : Root × Int) => decide (t.2 = 0 ∧ find t.1 0 = some none)) (by decide +kernel)
  rw [Bool.and_eq_true] at hp
  cases hf : free r 8192 with
  | none => rw [hf] at hp; cases hp.2
  | some t =>
    obtain ⟨r', e⟩ := t
    rw [hf] at hp
    obtain ⟨a, b⟩ := of_decide_eq_true hp.1
    obtain ⟨c, d⟩ := of_decide_eq_true hp.2
    dsimp only at c d
    subst c
    exact ⟨r, M, r', h, a, b, hf, d⟩

/-- An element at `2^63` can be allocated but neither searched nor freed: the array of parents is too small. -/
theorem high_violated : ∃ r p, alloc (fun _ => true) init (2 ^ 63) = some (r, some p) ∧ find r (2 ^ 63) = none ∧ free r (2 ^ 63) = none := by
  have h : (alloc (fun _ => true) init (2 ^ 63)).any (fun t => t.2.isSome && decide (find t.1 (2 ^ 63) = none) && (free t.1 (2 ^ 63)).isNone) = true := by
    decide +kernel
  cases ha : alloc (fun _ => true) init (2 ^ 63) with
  | none => rw [ha] at h; cases h
  | some t =>
    obtain ⟨r, p⟩ := t
    rw [ha] at h
    have h : (p.isSome && decide (find r (2 ^ 63) = none) && (free r (2 ^ 63)).isNone) = true := h
    rw [Bool.and_eq_true, Bool.and_eq_true, Option.isNone_iff_eq_none] at h
    obtain ⟨q, rfl⟩ := Option.isSome_iff_exists.1 h.1.1
    exact ⟨r, q, rfl, of_decide_eq_true h.1.2, h.2⟩

/-- With element 256 alone in the tree, there seems to be no first element. -/
theorem first_violated : ∃ r M, Run (fun _ => true) r M ∧ M 256 ≠ none ∧ first r = some none := by
  obtain ⟨r, M, h, hp⟩ := exec_ex (mem := fun _ => true) [.alloc 256]
    (fun r M => decide (M 256 ≠ none ∧ first r = some none)) (by decide +kernel)
  exact ⟨r, M, h, of_decide_eq_true hp⟩

/-- The step from element 7936 to element 8192 stores the offset 16128, where nothing is: the next step ends the walk. -/
theorem next_violated : ∃ r M p, Run (fun _ => true) r M ∧ IsNext M 7936 8192 ∧ M 8192 = some p ∧ next r 7936 = some (some (p, 16128)) ∧
    M 16128 = none := by
  obtain ⟨r, M, h, hp⟩ := exec_ex (mem := fun _ => true) [.alloc 8192, .alloc 7936]
    (fun r M => decide (M 7936 ≠ none ∧ (M 8192).isSome = true ∧ ((List.range 255).all fun x => (M (x + 7937)).isNone) = true ∧
      next r 7936 = some ((M 8192).map fun p => (p, 16128)) ∧ M 16128 = none)) (by decide +kernel)
  obtain ⟨a, b, c, d, e⟩ := of_decide_eq_true hp
  obtain ⟨p, hp⟩ := Option.isSome_iff_exists.1 b
  rw [hp] at d
  refine ⟨r, M, p, h, ⟨by omega, by rw [hp]; exact (fun h => by cases h), fun x h1 h2 => ?_⟩, hp, d, e⟩
  have := List.all_eq_true.1 c (x - 7937) (List.mem_range.2 (by omega))
  rw [Option.isNone_iff_eq_none, show x - 7937 + 7937 = x by omega] at this
  exact this

/-- The step down from the lowest element 256 gives a pointer behind the first leaf. -/
theorem prev_violated : ∃ r M id o, Run (fun _ => true) r M ∧ M 256 ≠ none ∧ prev r 256 = some (some ((id, 256), o)) := by
  obtain ⟨r, M, h, hp⟩ := exec_ex (mem := fun _ => true) [.alloc 256]
    (fun r M => decide (M 256 ≠ none ∧ prev r 256 = some (some ((0, 256), 256)))) (by decide +kernel)
  exact ⟨r, M, 0, 256, h, of_decide_eq_true hp⟩

/-- Once memory was refused in the middle of an allocation, asking for the last element runs into `BFDEV_BUG_ON`. -/
theorem refused_violated : ∃ mem r M, Run mem r M ∧ M 0 ≠ none ∧ last r = none := by
  obtain ⟨r, M, h, hp⟩ := exec_ex (mem := fun k => k < 4) [.alloc 8192, .alloc 0]
    (fun r M => decide (M 0 ≠ none ∧ last r = none)) (by decide +kernel)
  exact ⟨_, r, M, h, of_decide_eq_true hp⟩

/-- The index of an element of 24 bytes is not recovered from its offset. -/
theorem index_violated : radixOffset 1 24 = 24 ∧ radixIndex 24 24 = 0 := by decide +kernel

/-! ### Examples -/

/-- A history with several levels meets the hypotheses of the theorems above. -/
example : ∃ r M, Run (fun _ => true) r M ∧
    (Clear r 5 ∧ find r 5 = some none ∧ (find r 70000).isSome ∧ M 70000 ≠ none ∧ M 3 ≠ none ∧ M 300 = none ∧ r.level = 2 ∧
      next r 3 = some ((M 40).map fun p => (p, 40)) ∧ prev r 40 = some ((M 3).map fun p => (p, 3)) ∧ (last r).isSome) := by
  obtain ⟨r, M, h, hp⟩ := exec_ex (mem := fun _ => true) [.free 300, .alloc 40, .alloc 300, .alloc 70000, .alloc 3]
    (fun r M => decide (Clear r 5 ∧ find r 5 = some none ∧ (find r 70000).isSome ∧ M 70000 ≠ none ∧ M 3 ≠ none ∧ M 300 = none ∧ r.level = 2 ∧
      next r 3 = some ((M 40).map fun p => (p, 40)) ∧ prev r 40 = some ((M 3).map fun p => (p, 3)) ∧ (last r).isSome)) (by decide +kernel)
  exact ⟨r, M, h, of_decide_eq_true hp⟩

end Bfdev.Radix

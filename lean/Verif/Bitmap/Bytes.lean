import Verif.Bitmap.Lemmas
set_option linter.unusedSimpArgs false
namespace Bfdev.Bitmap
open Bfdev.Scan (Word lowMask highMask bit bitRange ffsuf flsuf ffzuf flzuf IsFirst IsLast)

theorem bitOf_shift (m : Mem) (s i : Nat) : bitOf m s i = bitOf m 0 (64 * s + i) := by
  unfold bitOf
  rw [show 0 + (64 * s + i) / 64 = s + i / 64 by omega, show (64 * s + i) % 64 = i % 64 by omega]

theorem word_ext {m m' : Mem} (hl : m'.length = m.length) {a : Nat} (h : ∀ k, k / 64 = a → bitOf m' 0 k = bitOf m 0 k) : m'[a]? = m[a]? := by
  by_cases ha : a < m.length
  · have ha' : a < m'.length := by omega
    rw [List.getElem?_eq_getElem ha, List.getElem?_eq_getElem ha']
    congr 1
    apply BitVec.eq_of_getLsbD_eq
    intro i hi
    have := h (64 * a + i) (by omega)
    unfold bitOf at this
    rw [show 0 + (64 * a + i) / 64 = a by omega, show (64 * a + i) % 64 = i by omega, List.getElem?_eq_getElem ha, List.getElem?_eq_getElem ha'] at this
    simpa using this
  · rw [List.getElem?_eq_none (by omega), List.getElem?_eq_none (by omega)]

theorem bitOf_set {m : Mem} {a : Nat} (v : Word) (ha : a < m.length) (k : Nat) :
    bitOf (m.set a v) 0 k = if k / 64 = a then v.getLsbD (k % 64) else bitOf m 0 k := by
  unfold bitOf
  rw [Nat.zero_add, List.getElem?_set]
  by_cases h : k / 64 = a
  · rw [if_pos h.symm, if_pos ha, if_pos h]; rfl
  · rw [if_neg (fun e => h e.symm), if_neg h]

theorem rdByte_some {m : Mem} {b : Nat} (h : b / 8 < m.length) : ∃ v, rdByte m b = some v ∧ ∀ j, j < 8 → v.getLsbD j = bitOf m 0 (8 * b + j) := by
  refine ⟨_, by unfold rdByte; rw [rd_some h]; rfl, fun j hj => ?_⟩
  unfold bitOf
  rw [BitVec.getLsbD_setWidth, BitVec.getLsbD_ushiftRight, show 0 + (8 * b + j) / 64 = b / 8 by omega, show (8 * b + j) % 64 = 8 * (b % 8) + j by omega]
  simp [hj]

theorem wrByte_some {m : Mem} {b : Nat} (v : BitVec 8) (h : b / 8 < m.length) : ∃ m', wrByte m b v = some m' ∧ m'.length = m.length ∧
    ∀ k, bitOf m' 0 k = if k / 8 = b then v.getLsbD (k % 8) else bitOf m 0 k := by
  refine ⟨_, by unfold wrByte; rw [rd_some h]; simp only [bind, Option.bind]; rw [wr_some _ h], by simp, fun k => ?_⟩
  rw [bitOf_set _ h]
  have hff : ∀ i, (0xff#64).getLsbD i = decide (i < 8) := by
    intro i
    rw [show (0xff#64 : Word) = lowMask 8 by decide, lowMask_bit 8 i (by decide)]
  by_cases hk : k / 64 = b / 8
  · rw [if_pos hk, BitVec.getLsbD_or, BitVec.getLsbD_and, BitVec.getLsbD_not, BitVec.getLsbD_shiftLeft, BitVec.getLsbD_shiftLeft, hff,
      BitVec.getLsbD_setWidth, ← hk, show ((m[k / 64]?.getD 0).getLsbD (k % 64)) = bitOf m 0 k by unfold bitOf; rw [Nat.zero_add]]
    have h64 : k % 64 < 64 := Nat.mod_lt _ (by omega)
    by_cases hb : k / 8 = b
    · rw [if_pos hb]
      have e1 : ¬ k % 64 < 8 * (b % 8) := by omega
      have e2 : k % 64 - 8 * (b % 8) = k % 8 := by omega
      have e3 : k % 8 < 8 := by omega
      simp only [h64, e1, e2, e3, decide_true, decide_false, Bool.not_false, Bool.and_true, Bool.true_and, Bool.not_true, Bool.and_false, Bool.false_or]
      simp; omega
    · rw [if_neg hb]
      by_cases e1 : k % 64 < 8 * (b % 8)
      · simp [h64, e1]
      · have e2 : ¬ k % 64 - 8 * (b % 8) < 8 := by omega
        have e3 : v.getLsbD (k % 64 - 8 * (b % 8)) = false := BitVec.getLsbD_of_ge _ _ (by omega)
        simp [h64, e1, e2, e3]
  · rw [if_neg hk, if_neg (by omega)]

theorem memset_some : ∀ (n : Nat) (m : Mem) (b : Nat) (v : BitVec 8), b + n ≤ 8 * m.length → ∃ m', memset n m b v = some m' ∧ m'.length = m.length ∧
    ∀ k, bitOf m' 0 k = if b ≤ k / 8 ∧ k / 8 < b + n then v.getLsbD (k % 8) else bitOf m 0 k := by
  intro n
  induction n with
  | zero => intro m b v _; exact ⟨m, rfl, rfl, fun k => by rw [if_neg (by omega)]⟩
  | succ n ih =>
    intro m b v hb
    obtain ⟨m1, e1, l1, h1⟩ := wrByte_some (m := m) (b := b) v (by omega)
    obtain ⟨m2, e2, l2, h2⟩ := ih m1 (b + 1) v (by omega)
    refine ⟨m2, by rw [memset, e1]; exact e2, by omega, fun k => ?_⟩
    rw [h2, h1]
    by_cases h : k / 8 = b
    · rw [if_pos h, if_pos (show b ≤ k / 8 ∧ k / 8 < b + (n + 1) by omega)]; split <;> rfl
    · rw [if_neg h]
      by_cases h' : b + 1 ≤ k / 8 ∧ k / 8 < b + 1 + n
      · rw [if_pos h', if_pos (by omega)]
      · rw [if_neg h', if_neg (by omega)]

theorem memcpy_some : ∀ (n : Nat) (m : Mem) (d s : Nat), d + n ≤ 8 * m.length → s + n ≤ 8 * m.length → (d + n ≤ s ∨ s + n ≤ d) →
    ∃ m', memcpy n m d s = some m' ∧ m'.length = m.length ∧
    ∀ k, bitOf m' 0 k = if d ≤ k / 8 ∧ k / 8 < d + n then bitOf m 0 (8 * s + (k - 8 * d)) else bitOf m 0 k := by
  intro n
  induction n with
  | zero => intro m d s _ _ _; exact ⟨m, rfl, rfl, fun k => by rw [if_neg (by omega)]⟩
  | succ n ih =>
    intro m d s hd hs ho
    obtain ⟨v, ev, hv⟩ := rdByte_some (m := m) (b := s) (by omega)
    obtain ⟨m1, e1, l1, h1⟩ := wrByte_some (m := m) (b := d) v (by omega)
    obtain ⟨m2, e2, l2, h2⟩ := ih m1 (d + 1) (s + 1) (by omega) (by omega) (by omega)
    refine ⟨m2, by rw [memcpy, ev]; simp only [bind, Option.bind, e1]; exact e2, by omega, fun k => ?_⟩
    rw [h2]
    by_cases h : k / 8 = d
    · rw [if_neg (by omega), h1, if_pos h, if_pos (by omega), hv _ (by omega)]
      exact congrArg _ (by omega)
    · by_cases h' : d + 1 ≤ k / 8 ∧ k / 8 < d + 1 + n
      · rw [if_pos h', if_pos (by omega), h1, if_neg (by omega)]
        exact congrArg _ (by omega)
      · rw [if_neg h', h1, if_neg h, if_neg (by omega)]

theorem byte_ne {u v : BitVec 8} : u ≠ v ↔ ∃ j, j < 8 ∧ u.getLsbD j ≠ v.getLsbD j := by
  constructor
  · intro h
    apply Classical.byContradiction
    intro hc
    exact h (BitVec.eq_of_getLsbD_eq (fun i hi => Classical.byContradiction (fun hn => hc ⟨i, hi, hn⟩)))
  · rintro ⟨j, _, h⟩ rfl; exact h rfl

theorem memcmp_some : ∀ (n : Nat) (m : Mem) (a b : Nat), a + n ≤ 8 * m.length → b + n ≤ 8 * m.length →
    ∃ r, memcmp n m a b = some r ∧ (r = true ↔ ∃ i, i < 8 * n ∧ bitOf m 0 (8 * a + i) ≠ bitOf m 0 (8 * b + i)) := by
  intro n
  induction n with
  | zero => intro m a b _ _; exact ⟨false, rfl, by simp⟩
  | succ n ih =>
    intro m a b ha hb
    obtain ⟨u, eu, hu⟩ := rdByte_some (m := m) (b := a) (by omega)
    obtain ⟨v, ev, hv⟩ := rdByte_some (m := m) (b := b) (by omega)
    rw [memcmp, eu, ev]
    simp only [bind, Option.bind]
    by_cases h : u ≠ v
    · refine ⟨true, by rw [if_pos h]; rfl, ?_⟩
      obtain ⟨j, hj, e⟩ := byte_ne.1 h
      rw [hu j hj, hv j hj] at e
      simp only [true_iff]
      exact ⟨j, by omega, e⟩
    · rw [if_neg h]
      obtain ⟨r, e, hr⟩ := ih m (a + 1) (b + 1) (by omega) (by omega)
      refine ⟨r, e, hr.trans ⟨fun ⟨i, h1, h2⟩ => ⟨i + 8, by omega, by
        rw [show 8 * a + (i + 8) = 8 * (a + 1) + i by omega, show 8 * b + (i + 8) = 8 * (b + 1) + i by omega]; exact h2⟩, fun ⟨i, h1, h2⟩ => ?_⟩⟩
      by_cases hi : i < 8
      · rw [← hu i hi, ← hv i hi] at h2
        exact absurd (byte_ne.2 ⟨i, hi, h2⟩) h
      · exact ⟨i - 8, by omega, by
          rw [show 8 * (a + 1) + (i - 8) = 8 * a + i by omega, show 8 * (b + 1) + (i - 8) = 8 * b + i by omega]; exact h2⟩

theorem memdiff_some : ∀ (n : Nat) (m : Mem) (a : Nat) (c : BitVec 8), a + n ≤ 8 * m.length →
    ∃ r, memdiff n m a c = some r ∧ (r = true ↔ ∃ i, i < 8 * n ∧ bitOf m 0 (8 * a + i) ≠ c.getLsbD (i % 8)) := by
  intro n
  induction n with
  | zero => intro m a b _; exact ⟨false, rfl, by simp⟩
  | succ n ih =>
    intro m a c ha
    obtain ⟨u, eu, hu⟩ := rdByte_some (m := m) (b := a) (by omega)
    rw [memdiff, eu]
    simp only [bind, Option.bind]
    by_cases h : u ≠ c
    · refine ⟨true, by rw [if_pos h]; rfl, ?_⟩
      obtain ⟨j, hj, e⟩ := byte_ne.1 h
      rw [hu j hj] at e
      simp only [true_iff]
      exact ⟨j, by omega, by rw [Nat.mod_eq_of_lt hj]; exact e⟩
    · rw [if_neg h]
      obtain ⟨r, e, hr⟩ := ih m (a + 1) c (by omega)
      refine ⟨r, e, hr.trans ⟨fun ⟨i, h1, h2⟩ => ⟨i + 8, by omega, by
        rw [show 8 * a + (i + 8) = 8 * (a + 1) + i by omega, show (i + 8) % 8 = i % 8 by omega]; exact h2⟩, fun ⟨i, h1, h2⟩ => ?_⟩⟩
      by_cases hi : i < 8
      · rw [Nat.mod_eq_of_lt hi, ← hu i hi] at h2
        exact absurd (byte_ne.2 ⟨i, hi, h2⟩) h
      · exact ⟨i - 8, by omega, by
          rw [show 8 * (a + 1) + (i - 8) = 8 * a + i by omega, show (i - 8) % 8 = i % 8 by omega]; exact h2⟩

/-- From the flat view of memory back to the bitmap at `d`. -/
theorem writes_of_flat {m m' : Mem} {d bits : Nat} {f : Nat → Bool} (hl : m'.length = m.length)
    (h1 : ∀ k, ¬ (64 * d ≤ k ∧ k < 64 * (d + words bits)) → bitOf m' 0 k = bitOf m 0 k)
    (h2 : ∀ i, i < 64 * words bits → bitOf m' 0 (64 * d + i) = (decide (i < bits) && f i)) : Writes m m' d bits f := by
  refine ⟨⟨hl, fun a ha => word_ext hl (fun k hk => h1 k (by omega))⟩, fun i hi => ?_⟩
  rw [bitOf_shift]; exact h2 i hi

end Bfdev.Bitmap

import Verif.Bitmap.Props
/-!
C45: bitwise operations and comparisons of bitmaps.
-/
set_option linter.unusedSimpArgs false
namespace Bfdev.Bitmap
open Bfdev.Scan (Word lowMask highMask bit bitRange ffsuf flsuf ffzuf flzuf IsFirst IsLast)

/-- Storing one masked word: the code for a bit count known to be at most 64. -/
theorem small_writes {m : Mem} {d bits : Nat} {f : Nat → Bool} {v : Word} (hd : d < m.length) (h1 : 1 ≤ bits) (h2 : bits ≤ 64)
    (hv : ∀ j, j < 64 → v.getLsbD j = (f j && decide (j < bits))) : ∃ m', wr m d v = some m' ∧ Writes m m' d bits f := by
  have hw : words bits = 1 := by unfold words; omega
  refine ⟨m.set d v, wr_some _ hd, ⟨by simp, fun a ha => ?_⟩, fun i hi => ?_⟩
  · rw [hw] at ha
    rw [List.getElem?_set, if_neg (by omega)]
  · rw [hw] at hi
    rw [← bitOf_word, show d + i / 64 = d by omega, show i % 64 = i by omega, List.getElem?_set, if_pos rfl, if_pos hd, Option.getD_some, hv i (by omega), Bool.and_comm]

theorem any_small {v : Word} {p : Nat → Bool} {bits : Nat} (h2 : bits ≤ 64) (hv : ∀ j, j < 64 → v.getLsbD j = (p j && decide (j < bits))) :
    (v ≠ 0 ↔ ∃ i, i < bits ∧ p i = true) := by
  rw [word_ne_zero]
  constructor
  · rintro ⟨i, hi, h⟩
    rw [hv i hi, Bool.and_eq_true, decide_eq_true_eq] at h
    exact ⟨i, h.2, h.1⟩
  · rintro ⟨i, hi, h⟩
    exact ⟨i, by omega, by rw [hv i (by omega), h]; simp [hi]⟩

section
variable {m : Mem} {d s1 s2 bits : Nat}

/-- C45: intersection; the result tells whether it is non-empty. -/
theorem bitmap_and (const : Bool) (hd : Inside m d bits) (h1 : Inside m s1 bits) (h2 : Inside m s2 bits) (o1 : NoOverlap d s1 bits) (o2 : NoOverlap d s2 bits) :
    ∃ m' r, bmAnd const m d s1 s2 bits = some (m', r) ∧ Writes m m' d bits (fun i => bitOf m s1 i && bitOf m s2 i) ∧
      (r = true ↔ ∃ i, i < bits ∧ (bitOf m s1 i && bitOf m s2 i) = true) := by
  unfold bmAnd
  by_cases hc : constSmall const bits = true
  · rw [hc]
    obtain ⟨-, b1, b2⟩ := small_iff.1 hc
    simp only [Bool.not_true, Bool.false_eq_true, if_false, bind, Option.bind, rd_some (small_inside h1 b1), rd_some (small_inside h2 b1)]
    have hv : ∀ j, j < 64 → (m[s1]?.getD 0 &&& m[s2]?.getD 0 &&& lowMask bits).getLsbD j = ((bitOf m s1 j && bitOf m s2 j) && decide (j < bits)) := by
      intro j hj
      rw [BitVec.getLsbD_and, BitVec.getLsbD_and, word_bitOf hj, word_bitOf hj, lowMask_small b1 b2]
    obtain ⟨m', e, hw⟩ := small_writes (f := fun i => bitOf m s1 i && bitOf m s2 i) (small_inside hd b1) b1 b2 hv
    rw [e]
    exact ⟨m', _, rfl, hw, by rw [bne_iff_ne]; exact any_small b2 hv⟩
  · rw [if_pos (by simpa using hc)]
    obtain ⟨m', r, e, hw, hr⟩ := comp_eq (w := fun k => m[s1 + k]?.getD 0 &&& m[s2 + k]?.getD 0)
      (val := fun m i => do return (← rd m (s1 + i)) &&& (← rd m (s2 + i))) hd (fun k m' hk hl ha => by
        simp only [bind, Option.bind, src_rd h1 o1 hk hl ha, src_rd h2 o2 hk hl ha]; rfl)
    refine ⟨m', r != 0, by unfold compAnd; simp only [bind, Option.bind] at e ⊢; rw [e]; rfl, ?_, ?_⟩
    · simpa only [BitVec.getLsbD_and, bitOf_word] using hw
    · rw [bne_iff_ne]
      simpa only [BitVec.getLsbD_and, bitOf_word] using hr

/-- C45: difference. -/
theorem bitmap_andnot (const : Bool) (hd : Inside m d bits) (h1 : Inside m s1 bits) (h2 : Inside m s2 bits) (o1 : NoOverlap d s1 bits) (o2 : NoOverlap d s2 bits) :
    ∃ m' r, bmAndnot const m d s1 s2 bits = some (m', r) ∧ Writes m m' d bits (fun i => bitOf m s1 i && !bitOf m s2 i) ∧
      (r = true ↔ ∃ i, i < bits ∧ (bitOf m s1 i && !bitOf m s2 i) = true) := by
  unfold bmAndnot
  by_cases hc : constSmall const bits = true
  · rw [hc]
    obtain ⟨-, b1, b2⟩ := small_iff.1 hc
    simp only [Bool.not_true, Bool.false_eq_true, if_false, bind, Option.bind, rd_some (small_inside h1 b1), rd_some (small_inside h2 b1)]
    have hv : ∀ j, j < 64 → (m[s1]?.getD 0 &&& ~~~(m[s2]?.getD 0) &&& lowMask bits).getLsbD j = ((bitOf m s1 j && !bitOf m s2 j) && decide (j < bits)) := by
      intro j hj
      rw [BitVec.getLsbD_and, BitVec.getLsbD_and, BitVec.getLsbD_not, word_bitOf hj, word_bitOf hj, lowMask_small b1 b2]; simp [hj]
    obtain ⟨m', e, hw⟩ := small_writes (f := fun i => bitOf m s1 i && !bitOf m s2 i) (small_inside hd b1) b1 b2 hv
    rw [e]
    exact ⟨m', _, rfl, hw, by rw [bne_iff_ne]; exact any_small b2 hv⟩
  · rw [if_pos (by simpa using hc)]
    obtain ⟨m', r, e, hw, hr⟩ := comp_eq (w := fun k => m[s1 + k]?.getD 0 &&& ~~~(m[s2 + k]?.getD 0))
      (val := fun m i => do return (← rd m (s1 + i)) &&& ~~~(← rd m (s2 + i))) hd (fun k m' hk hl ha => by
        simp only [bind, Option.bind, src_rd h1 o1 hk hl ha, src_rd h2 o2 hk hl ha]; rfl)
    have hf : (fun i => (m[s1 + i / 64]?.getD 0 &&& ~~~(m[s2 + i / 64]?.getD 0)).getLsbD (i % 64)) = fun i => bitOf m s1 i && !bitOf m s2 i := by
      funext i
      rw [BitVec.getLsbD_and, BitVec.getLsbD_not, bitOf_word, bitOf_word]
      have : i % 64 < 64 := Nat.mod_lt _ (by omega)
      simp [this]
    refine ⟨m', r != 0, by unfold compAndnot; simp only [bind, Option.bind] at e ⊢; rw [e]; rfl, by rw [← hf]; exact hw, ?_⟩
    rw [bne_iff_ne, hr]
    simp only [fun i => congrFun hf i]

/-- C45: union. -/
theorem bitmap_or (const : Bool) (hd : Inside m d bits) (h1 : Inside m s1 bits) (h2 : Inside m s2 bits) (o1 : NoOverlap d s1 bits) (o2 : NoOverlap d s2 bits) :
    ∃ m', bmOr const m d s1 s2 bits = some m' ∧ Writes m m' d bits (fun i => bitOf m s1 i || bitOf m s2 i) := by
  unfold bmOr
  by_cases hc : constSmall const bits = true
  · rw [hc]
    obtain ⟨-, b1, b2⟩ := small_iff.1 hc
    simp only [Bool.not_true, Bool.false_eq_true, if_false, bind, Option.bind, rd_some (small_inside h1 b1), rd_some (small_inside h2 b1)]
    refine small_writes (small_inside hd b1) b1 b2 (fun j hj => ?_)
    rw [BitVec.getLsbD_and, BitVec.getLsbD_or, word_bitOf hj, word_bitOf hj, lowMask_small b1 b2]
  · rw [if_pos (by simpa using hc)]
    obtain ⟨m', r, e, hw, hr⟩ := comp_eq (w := fun k => m[s1 + k]?.getD 0 ||| m[s2 + k]?.getD 0)
      (val := fun m i => do return (← rd m (s1 + i)) ||| (← rd m (s2 + i))) hd (fun k m' hk hl ha => by
        simp only [bind, Option.bind, src_rd h1 o1 hk hl ha, src_rd h2 o2 hk hl ha]; rfl)
    refine ⟨m', by unfold compOr; simp only [bind, Option.bind] at e ⊢; rw [e]; rfl, ?_⟩
    simpa only [BitVec.getLsbD_or, bitOf_word] using hw

/-- C45: symmetric difference. -/
theorem bitmap_xor (const : Bool) (hd : Inside m d bits) (h1 : Inside m s1 bits) (h2 : Inside m s2 bits) (o1 : NoOverlap d s1 bits) (o2 : NoOverlap d s2 bits) :
    ∃ m', bmXor const m d s1 s2 bits = some m' ∧ Writes m m' d bits (fun i => bitOf m s1 i != bitOf m s2 i) := by
  unfold bmXor
  by_cases hc : constSmall const bits = true
  · rw [hc]
    obtain ⟨-, b1, b2⟩ := small_iff.1 hc
    simp only [Bool.not_true, Bool.false_eq_true, if_false, bind, Option.bind, rd_some (small_inside h1 b1), rd_some (small_inside h2 b1)]
    refine small_writes (small_inside hd b1) b1 b2 (fun j hj => ?_)
    rw [BitVec.getLsbD_and, BitVec.getLsbD_xor, word_bitOf hj, word_bitOf hj, lowMask_small b1 b2]
  · rw [if_pos (by simpa using hc)]
    obtain ⟨m', r, e, hw, hr⟩ := comp_eq (w := fun k => m[s1 + k]?.getD 0 ^^^ m[s2 + k]?.getD 0)
      (val := fun m i => do return (← rd m (s1 + i)) ^^^ (← rd m (s2 + i))) hd (fun k m' hk hl ha => by
        simp only [bind, Option.bind, src_rd h1 o1 hk hl ha, src_rd h2 o2 hk hl ha]; rfl)
    refine ⟨m', by unfold compXor; simp only [bind, Option.bind] at e ⊢; rw [e]; rfl, ?_⟩
    simpa only [BitVec.getLsbD_xor, bitOf_word] using hw

/-- C45: complement. -/
theorem bitmap_complement (const : Bool) (hd : Inside m d bits) (h1 : Inside m s1 bits) (o1 : NoOverlap d s1 bits) :
    ∃ m', bmComplement const m d s1 bits = some m' ∧ Writes m m' d bits (fun i => !bitOf m s1 i) := by
  unfold bmComplement
  by_cases hc : constSmall const bits = true
  · rw [hc]
    obtain ⟨-, b1, b2⟩ := small_iff.1 hc
    simp only [Bool.not_true, Bool.false_eq_true, if_false, bind, Option.bind, rd_some (small_inside h1 b1)]
    refine small_writes (small_inside hd b1) b1 b2 (fun j hj => ?_)
    rw [BitVec.getLsbD_and, BitVec.getLsbD_not, word_bitOf hj, lowMask_small b1 b2]; simp [hj]
  · rw [if_pos (by simpa using hc)]
    obtain ⟨m', r, e, hw, hr⟩ := comp_eq (w := fun k => ~~~(m[s1 + k]?.getD 0))
      (val := fun m i => do return ~~~(← rd m (s1 + i))) hd (fun k m' hk hl ha => by
        simp only [bind, Option.bind, src_rd h1 o1 hk hl ha]; rfl)
    refine ⟨m', by unfold compComplement; simp only [bind, Option.bind] at e ⊢; rw [e]; rfl, ?_⟩
    simpa only [BitVec.getLsbD_not, bitOf_word, Nat.mod_lt _ (show 0 < 64 by omega), decide_true, Bool.true_and] using hw

/-- C45: replacement under a mask. -/
theorem bitmap_replace {o n k : Nat} (hd : Inside m d bits) (h1 : Inside m o bits) (h2 : Inside m n bits) (h3 : Inside m k bits)
    (o1 : NoOverlap d o bits) (o2 : NoOverlap d n bits) (o3 : NoOverlap d k bits) :
    ∃ m', compReplace m d o n k bits = some m' ∧ Writes m m' d bits (fun i => if bitOf m k i then bitOf m n i else bitOf m o i) := by
  obtain ⟨m', r, e, hw, hr⟩ := comp_eq (w := fun j => (m[o + j]?.getD 0 &&& ~~~(m[k + j]?.getD 0)) ||| (m[n + j]?.getD 0 &&& m[k + j]?.getD 0))
    (val := fun m i => do return ((← rd m (o + i)) &&& ~~~(← rd m (k + i))) ||| ((← rd m (n + i)) &&& (← rd m (k + i)))) hd (fun j m' hk hl ha => by
      simp only [bind, Option.bind, src_rd h1 o1 hk hl ha, src_rd h2 o2 hk hl ha, src_rd h3 o3 hk hl ha]; rfl)
  refine ⟨m', by unfold compReplace; simp only [bind, Option.bind] at e ⊢; rw [e]; rfl, ?_⟩
  have hf : (fun i => ((m[o + i / 64]?.getD 0 &&& ~~~(m[k + i / 64]?.getD 0)) ||| (m[n + i / 64]?.getD 0 &&& m[k + i / 64]?.getD 0)).getLsbD (i % 64)) =
      fun i => if bitOf m k i then bitOf m n i else bitOf m o i := by
    funext i
    rw [BitVec.getLsbD_or, BitVec.getLsbD_and, BitVec.getLsbD_and, BitVec.getLsbD_not, bitOf_word, bitOf_word, bitOf_word]
    have : i % 64 < 64 := Nat.mod_lt _ (by omega)
    simp only [this, decide_true, Bool.true_and]
    cases bitOf m k i <;> simp
  rw [← hf]; exact hw

/-! ### Comparisons -/

/-- The full words, then the masked word, of a comparison whose difference word is `w k`. -/
theorem compare_eq {w : Nat → Word} {stop : Nat → Option Bool} (hs : ∀ k, k < bits / 64 → stop k = some (w k != 0)) :
    ∃ r, scanLoop stop (bits / 64) 0 = some r ∧
      ((r || (decide (bits % 64 ≠ 0) && (w (bits / 64) &&& lowMask bits != 0))) = true ↔ ∃ i, i < bits ∧ (w (i / 64)).getLsbD (i % 64) = true) := by
  obtain ⟨r, e, hr⟩ := scanLoop_eq (stop := stop) (b := fun k => w k != 0) (bits / 64) 0 (fun k _ hk => hs k (by omega))
  refine ⟨r, e, ?_⟩
  rw [← any_words, Bool.or_eq_true, Bool.and_eq_true, hr, decide_eq_true_eq, bne_iff_ne]
  simp

theorem xor_bne (u v : Word) : (u ^^^ v != 0) = (u != v) := by
  rw [Bool.eq_iff_iff, bne_iff_ne, bne_iff_ne, Ne, Ne]
  refine not_congr ?_
  constructor
  · intro h
    have := congrArg (· ^^^ v) h
    simpa [BitVec.xor_assoc] using this
  · rintro rfl; simp

theorem compEqual_eq (h1 : Inside m s1 bits) (h2 : Inside m s2 bits) :
    ∃ r, compEqual m s1 s2 bits = some r ∧ (r = true ↔ ∀ i, i < bits → bitOf m s1 i = bitOf m s2 i) := by
  obtain ⟨r, e, hr⟩ := compare_eq (bits := bits) (w := fun k => m[s1 + k]?.getD 0 ^^^ m[s2 + k]?.getD 0)
    (stop := fun i => do return (← rd m (s1 + i)) != (← rd m (s2 + i))) (fun k hk => by
      have hk' : k < words bits := by unfold words; omega
      simp only [bind, Option.bind, rd_some (inside_lt h1 hk'), rd_some (inside_lt h2 hk'), xor_bne]; rfl)
  have hex : (∃ i, i < bits ∧ (m[s1 + i / 64]?.getD 0 ^^^ m[s2 + i / 64]?.getD 0).getLsbD (i % 64) = true) ↔ ¬ ∀ i, i < bits → bitOf m s1 i = bitOf m s2 i := by
    simp only [BitVec.getLsbD_xor, bitOf_word, bne_iff_ne]
    grind
  rw [hex] at hr
  unfold compEqual
  simp only [bind, Option.bind] at e ⊢
  rw [e]
  dsimp only
  cases r with
  | true => exact ⟨false, rfl, by simpa using hr⟩
  | false =>
    by_cases hm : bits % 64 = 0
    · refine ⟨true, by simp [hm], ?_⟩
      simpa [hm] using hr
    · simp only [ne_eq, hm, not_false_eq_true, if_true, rd_some (inside_lt' h1 hm), rd_some (inside_lt' h2 hm), Bool.false_eq_true, if_false]
      refine ⟨_, rfl, ?_⟩
      rw [beq_iff_eq]
      simp only [Bool.false_or, ne_eq, hm, not_false_eq_true, decide_true, Bool.true_and, bne_iff_ne] at hr
      grind

theorem compOrEqual_eq {s3 : Nat} (h1 : Inside m s1 bits) (h2 : Inside m s2 bits) (h3 : Inside m s3 bits) :
    ∃ r, compOrEqual m s1 s2 s3 bits = some r ∧ (r = true ↔ ∀ i, i < bits → (bitOf m s1 i || bitOf m s2 i) = bitOf m s3 i) := by
  obtain ⟨r, e, hr⟩ := compare_eq (bits := bits) (w := fun k => (m[s1 + k]?.getD 0 ||| m[s2 + k]?.getD 0) ^^^ m[s3 + k]?.getD 0)
    (stop := fun i => do return ((← rd m (s1 + i)) ||| (← rd m (s2 + i))) != (← rd m (s3 + i))) (fun k hk => by
      have hk' : k < words bits := by unfold words; omega
      simp only [bind, Option.bind, rd_some (inside_lt h1 hk'), rd_some (inside_lt h2 hk'), rd_some (inside_lt h3 hk'), xor_bne]; rfl)
  have hex : (∃ i, i < bits ∧ ((m[s1 + i / 64]?.getD 0 ||| m[s2 + i / 64]?.getD 0) ^^^ m[s3 + i / 64]?.getD 0).getLsbD (i % 64) = true) ↔
      ¬ ∀ i, i < bits → (bitOf m s1 i || bitOf m s2 i) = bitOf m s3 i := by
    simp only [BitVec.getLsbD_xor, BitVec.getLsbD_or, bitOf_word, bne_iff_ne]
    grind
  rw [hex] at hr
  unfold compOrEqual
  simp only [bind, Option.bind] at e ⊢
  rw [e]
  dsimp only
  cases r with
  | true => exact ⟨false, rfl, by simpa using hr⟩
  | false =>
    by_cases hm : bits % 64 = 0
    · refine ⟨true, by simp [hm], ?_⟩
      simpa [hm] using hr
    · simp only [ne_eq, hm, not_false_eq_true, if_true, rd_some (inside_lt' h1 hm), rd_some (inside_lt' h2 hm), rd_some (inside_lt' h3 hm), Bool.false_eq_true, if_false]
      refine ⟨_, rfl, ?_⟩
      rw [beq_iff_eq]
      simp only [Bool.false_or, ne_eq, hm, not_false_eq_true, decide_true, Bool.true_and, bne_iff_ne] at hr
      grind

theorem compIntersects_eq (h1 : Inside m s1 bits) (h2 : Inside m s2 bits) :
    ∃ r, compIntersects m s1 s2 bits = some r ∧ (r = true ↔ ∃ i, i < bits ∧ (bitOf m s1 i && bitOf m s2 i) = true) := by
  obtain ⟨r, e, hr⟩ := compare_eq (bits := bits) (w := fun k => m[s1 + k]?.getD 0 &&& m[s2 + k]?.getD 0)
    (stop := fun i => do return ((← rd m (s1 + i)) &&& (← rd m (s2 + i))) != 0) (fun k hk => by
      have hk' : k < words bits := by unfold words; omega
      simp only [bind, Option.bind, rd_some (inside_lt h1 hk'), rd_some (inside_lt h2 hk')]; rfl)
  simp only [BitVec.getLsbD_and, bitOf_word] at hr
  unfold compIntersects
  simp only [bind, Option.bind] at e ⊢
  rw [e]
  dsimp only
  cases r with
  | true => exact ⟨true, rfl, by simpa using hr⟩
  | false =>
    by_cases hm : bits % 64 = 0
    · refine ⟨false, by simp [hm], ?_⟩
      simpa [hm] using hr
    · simp only [ne_eq, hm, not_false_eq_true, if_true, rd_some (inside_lt' h1 hm), rd_some (inside_lt' h2 hm), Bool.false_eq_true, if_false]
      refine ⟨_, rfl, ?_⟩
      simpa [hm] using hr

/-- C45: equality, for bit counts the compiler does not know. -/
theorem bitmap_equal_partial (h1 : Inside m s1 bits) (h2 : Inside m s2 bits) :
    ∃ r, bmEqual false m s1 s2 bits = some r ∧ (r = true ↔ ∀ i, i < bits → bitOf m s1 i = bitOf m s2 i) := compEqual_eq h1 h2

/-- Disagreement: with a bit count known to the compiler and either at most 64 or a multiple of 8, `bfdev_bitmap_equal` says exactly
the opposite. -/
theorem bitmap_equal_violated (hb : (1 ≤ bits ∧ bits ≤ 64) ∨ bits % 8 = 0) (h1 : Inside m s1 bits) (h2 : Inside m s2 bits) :
    ∃ r, bmEqual true m s1 s2 bits = some r ∧ (r = true ↔ ¬ ∀ i, i < bits → bitOf m s1 i = bitOf m s2 i) := by
  unfold bmEqual
  by_cases hc : constSmall true bits = true
  · rw [if_pos hc]
    obtain ⟨-, b1, b2⟩ := small_iff.1 hc
    simp only [bind, Option.bind, rd_some (small_inside h1 b1), rd_some (small_inside h2 b1)]
    refine ⟨_, rfl, ?_⟩
    rw [bne_iff_ne, any_small (p := fun j => bitOf m s1 j != bitOf m s2 j) b2 (fun j hj => by
      rw [BitVec.getLsbD_and, BitVec.getLsbD_xor, word_bitOf hj, word_bitOf hj, lowMask_small b1 b2])]
    simp only [bne_iff_ne]
    grind
  · have h8 : bits % 8 = 0 := by
      rcases hb with h | h
      · exact absurd (small_iff.2 ⟨rfl, h⟩) hc
      · exact h
    rw [if_neg hc, if_neg (by simp [constAligned, h8])]
    unfold Inside words at h1 h2
    obtain ⟨r, e, hr⟩ := memcmp_some (bits / 8) m (8 * s1) (8 * s2) (by omega) (by omega)
    refine ⟨r, e, hr.trans ?_⟩
    rw [show 8 * (bits / 8) = bits by omega]
    simp only [← Nat.mul_assoc, Nat.reduceMul, ← bitOf_shift]
    grind

/-- C45: does the union of two bitmaps equal the third, for bit counts the compiler does not know to be at most 64. -/
theorem bitmap_or_equal_partial (const : Bool) {s3 : Nat} (hc : const = false ∨ 64 < bits ∨ bits = 0) (h1 : Inside m s1 bits) (h2 : Inside m s2 bits) (h3 : Inside m s3 bits) :
    ∃ r, bmOrEqual const m s1 s2 s3 bits = some r ∧ (r = true ↔ ∀ i, i < bits → (bitOf m s1 i || bitOf m s2 i) = bitOf m s3 i) := by
  unfold bmOrEqual
  rw [if_pos (by simp [constSmall]; rcases hc with h | h <;> simp [h])]
  exact compOrEqual_eq h1 h2 h3

/-- Disagreement: for a bit count known to be at most 64, `bfdev_bitmap_or_equal` says exactly the opposite. -/
theorem bitmap_or_equal_violated {s3 : Nat} (hb : 1 ≤ bits ∧ bits ≤ 64) (h1 : Inside m s1 bits) (h2 : Inside m s2 bits) (h3 : Inside m s3 bits) :
    ∃ r, bmOrEqual true m s1 s2 s3 bits = some r ∧ (r = true ↔ ¬ ∀ i, i < bits → (bitOf m s1 i || bitOf m s2 i) = bitOf m s3 i) := by
  unfold bmOrEqual
  have hc := small_iff.2 ⟨rfl, hb⟩
  rw [hc]
  obtain ⟨b1, b2⟩ := hb
  simp only [Bool.not_true, Bool.false_eq_true, if_false, bind, Option.bind, rd_some (small_inside h1 b1), rd_some (small_inside h2 b1), rd_some (small_inside h3 b1)]
  refine ⟨_, rfl, ?_⟩
  rw [bne_iff_ne, any_small (p := fun j => (bitOf m s1 j || bitOf m s2 j) != bitOf m s3 j) b2 (fun j hj => by
    rw [BitVec.getLsbD_and, BitVec.getLsbD_xor, BitVec.getLsbD_or, word_bitOf hj, word_bitOf hj, word_bitOf hj, lowMask_small b1 b2])]
  simp only [bne_iff_ne]
  grind

/-- C45: do two bitmaps share a bit? -/
theorem bitmap_intersects (const : Bool) (h1 : Inside m s1 bits) (h2 : Inside m s2 bits) :
    ∃ r, bmIntersects const m s1 s2 bits = some r ∧ (r = true ↔ ∃ i, i < bits ∧ (bitOf m s1 i && bitOf m s2 i) = true) := by
  unfold bmIntersects
  by_cases hc : constSmall const bits = true
  · rw [hc]
    obtain ⟨-, b1, b2⟩ := small_iff.1 hc
    simp only [Bool.not_true, Bool.false_eq_true, if_false, bind, Option.bind, rd_some (small_inside h1 b1), rd_some (small_inside h2 b1)]
    refine ⟨_, rfl, ?_⟩
    rw [bne_iff_ne]
    exact any_small b2 (fun j hj => by rw [BitVec.getLsbD_and, BitVec.getLsbD_and, word_bitOf hj, word_bitOf hj, lowMask_small b1 b2])
  · rw [if_pos (by simpa using hc)]
    exact compIntersects_eq h1 h2

/-- C45: is the bitmap empty? -/
theorem bitmap_empty (const : Bool) (h1 : Inside m s1 bits) (hb : bits ≤ 2 ^ 32 - 64) :
    ∃ r, bmEmpty const m s1 bits = some r ∧ (r = true ↔ ∀ i, i < bits → bitOf m s1 i = false) := by
  unfold bmEmpty
  by_cases hc : constSmall const bits = true
  · rw [if_pos hc]
    obtain ⟨-, b1, b2⟩ := small_iff.1 hc
    simp only [bind, Option.bind, rd_some (small_inside h1 b1)]
    refine ⟨_, rfl, ?_⟩
    have := any_small (p := fun j => bitOf m s1 j) (v := m[s1]?.getD 0 &&& lowMask bits) b2 (fun j hj => by
      rw [BitVec.getLsbD_and, word_bitOf hj, lowMask_small b1 b2])
    rw [beq_iff_eq]
    grind
  · rw [if_neg hc]
    by_cases ha : constAligned const bits = true
    · rw [ha]
      have h8 : bits % 8 = 0 := by simp [constAligned] at ha; exact ha.2
      unfold Inside words at h1
      obtain ⟨r, e, hr⟩ := memdiff_some (bits / 8) m (8 * s1) 0 (by omega)
      simp only [Bool.not_true, Bool.false_eq_true, if_false, bind, Option.bind, e]
      refine ⟨!r, rfl, ?_⟩
      rw [show 8 * (bits / 8) = bits by omega] at hr
      simp only [← Nat.mul_assoc, Nat.reduceMul, ← bitOf_shift] at hr
      have e0 : ∀ i, (0 : BitVec 8).getLsbD i = false := by intro i; simp
      simp only [e0] at hr
      grind
    · rw [if_pos (by simpa using ha)]
      obtain ⟨r, e, h⟩ := find_first_bit const h1 hb
      simp only [bind, Option.bind, e]
      refine ⟨_, rfl, ?_⟩
      rw [decide_eq_true_eq]
      unfold FirstAt at h
      grind

/-- C45: is the bitmap full? -/
theorem bitmap_full (const : Bool) (h1 : Inside m s1 bits) (hb : bits ≤ 2 ^ 32 - 64) :
    ∃ r, bmFull const m s1 bits = some r ∧ (r = true ↔ ∀ i, i < bits → bitOf m s1 i = true) := by
  unfold bmFull
  by_cases hc : constSmall const bits = true
  · rw [if_pos hc]
    obtain ⟨-, b1, b2⟩ := small_iff.1 hc
    simp only [bind, Option.bind, rd_some (small_inside h1 b1)]
    refine ⟨_, rfl, ?_⟩
    have := any_small (p := fun j => !bitOf m s1 j) (v := ~~~(m[s1]?.getD 0) &&& lowMask bits) b2 (fun j hj => by
      rw [BitVec.getLsbD_and, BitVec.getLsbD_not, word_bitOf hj, lowMask_small b1 b2]; simp [hj])
    rw [beq_iff_eq]
    grind
  · rw [if_neg hc]
    by_cases ha : constAligned const bits = true
    · rw [ha]
      have h8 : bits % 8 = 0 := by simp [constAligned] at ha; exact ha.2
      unfold Inside words at h1
      obtain ⟨r, e, hr⟩ := memdiff_some (bits / 8) m (8 * s1) 0xff (by omega)
      simp only [Bool.not_true, Bool.false_eq_true, if_false, bind, Option.bind, e]
      refine ⟨!r, rfl, ?_⟩
      rw [show 8 * (bits / 8) = bits by omega] at hr
      simp only [← Nat.mul_assoc, Nat.reduceMul, ← bitOf_shift] at hr
      have e1 : ∀ i, i < 8 → (0xff : BitVec 8).getLsbD i = true := by decide
      have e0 : ∀ i, (0xff : BitVec 8).getLsbD (i % 8) = true := fun i => e1 _ (Nat.mod_lt _ (by omega))
      simp only [e0] at hr
      grind
    · rw [if_pos (by simpa using ha)]
      obtain ⟨r, e, h⟩ := find_first_zero_partial const h1 hb (by
        rintro rfl rfl
        exact hc (by decide))
      simp only [bind, Option.bind, e]
      refine ⟨_, rfl, ?_⟩
      rw [decide_eq_true_eq]
      unfold FirstAt at h
      grind

/-! ### zero, fill, copy -/

/-- C45: clearing, filling and copying a whole bitmap: the first `bits` bits are as named and nothing outside the words of the
bitmap changes. (The bits after `bits` in the last word are not specified: the code clears, sets or copies up to a byte or word.) -/
theorem bitmap_zero_fill_copy (const : Bool) (hd : Inside m d bits) (h1 : Inside m s1 bits) (ho : d + words bits ≤ s1 ∨ s1 + words bits ≤ d) :
    (∃ m', bmZero const m d bits = some m' ∧ SameOutside m m' d bits ∧ ∀ i, i < bits → bitOf m' d i = false) ∧
    (∃ m', bmFill const m d bits = some m' ∧ SameOutside m m' d bits ∧ ∀ i, i < bits → bitOf m' d i = true) ∧
    (∃ m', bmCopy const m d s1 bits = some m' ∧ SameOutside m m' d bits ∧ ∀ i, i < bits → bitOf m' d i = bitOf m s1 i) := by
  by_cases hc : constSmall const bits = true
  · obtain ⟨-, b1, b2⟩ := small_iff.1 hc
    have key : ∀ v : Word, ∃ m', wr m d v = some m' ∧ SameOutside m m' d bits ∧ ∀ i, i < bits → bitOf m' d i = v.getLsbD i := by
      intro v
      have hd' := small_inside hd b1
      refine ⟨m.set d v, wr_some _ hd', ⟨by simp, fun a ha => ?_⟩, fun i hi => ?_⟩
      · rw [List.getElem?_set, if_neg (by unfold words at ha; omega)]
      · rw [← bitOf_word, show d + i / 64 = d by omega, show i % 64 = i by omega, List.getElem?_set, if_pos rfl, if_pos hd', Option.getD_some]
    unfold bmZero bmFill bmCopy
    rw [if_pos hc, if_pos hc, if_pos hc]
    refine ⟨?_, ?_, ?_⟩
    · obtain ⟨m', a, b, c⟩ := key 0
      exact ⟨m', a, b, fun i hi => by rw [c i hi]; simp⟩
    · obtain ⟨m', a, b, c⟩ := key (BitVec.allOnes 64)
      exact ⟨m', a, b, fun i hi => by rw [c i hi, BitVec.getLsbD_allOnes]; simp; omega⟩
    · simp only [bind, Option.bind, rd_some (small_inside h1 b1)]
      obtain ⟨m', a, b, c⟩ := key (m[s1]?.getD 0)
      exact ⟨m', a, b, fun i hi => by rw [c i hi, word_bitOf (by omega)]⟩
  · unfold bmZero bmFill bmCopy
    rw [if_neg hc, if_neg hc, if_neg hc]
    unfold Inside words at hd h1
    unfold words at ho
    have set_case : ∀ v : BitVec 8, ∃ m', memset ((bits + 7) / 8) m (8 * d) v = some m' ∧ SameOutside m m' d bits ∧ ∀ i, i < bits → bitOf m' d i = v.getLsbD (i % 8) := by
      intro v
      obtain ⟨m', e, hl, h⟩ := memset_some ((bits + 7) / 8) m (8 * d) v (by omega)
      refine ⟨m', e, ⟨hl, fun a ha => word_ext hl (fun k hk => ?_)⟩, fun i hi => ?_⟩
      · unfold words at ha
        rw [h, if_neg (by omega)]
      · rw [bitOf_shift, h, if_pos (by omega), show (64 * d + i) % 8 = i % 8 by omega]
    refine ⟨?_, ?_, ?_⟩
    · obtain ⟨m', a, b, c⟩ := set_case 0
      exact ⟨m', a, b, fun i hi => by rw [c i hi]; simp⟩
    · obtain ⟨m', a, b, c⟩ := set_case 0xff
      have e1 : ∀ i, i < 8 → (0xff : BitVec 8).getLsbD i = true := by decide
      exact ⟨m', a, b, fun i hi => by rw [c i hi]; exact e1 _ (Nat.mod_lt _ (by omega))⟩
    · obtain ⟨m', e, hl, h⟩ := memcpy_some ((bits + 7) / 8) m (8 * d) (8 * s1) (by omega) (by omega) (by omega)
      refine ⟨m', e, ⟨hl, fun a ha => word_ext hl (fun k hk => ?_)⟩, fun i hi => ?_⟩
      · unfold words at ha
        rw [h, if_neg (by omega)]
      · rw [bitOf_shift, h, if_pos (by omega), bitOf_shift m s1 i]
        exact congrArg _ (by omega)

end

/-! ### Single bits -/

/-- C45: the single-bit operations change exactly the named bit, and the test-and-change forms return its old value. -/
theorem single_bits {m : Mem} {a b : Nat} (h : a + b / 64 < m.length) :
    (∃ m', bitSet m a b = some m' ∧ m'.length = m.length ∧ ∀ k, bitOf m' 0 k = if k = 64 * a + b then true else bitOf m 0 k) ∧
    (∃ m', bitClr m a b = some m' ∧ m'.length = m.length ∧ ∀ k, bitOf m' 0 k = if k = 64 * a + b then false else bitOf m 0 k) ∧
    (∃ m', bitFlip m a b = some m' ∧ m'.length = m.length ∧ ∀ k, bitOf m' 0 k = if k = 64 * a + b then !bitOf m a b else bitOf m 0 k) ∧
    bitTest m a b = some (bitOf m a b) := by
  have hb : ∀ k : Nat, k / 64 = a + b / 64 → (k = 64 * a + b ↔ k % 64 = b % 64) := by intro k hk; omega
  have hw : ∀ k : Nat, k / 64 = a + b / 64 → (m[a + b / 64]?.getD 0).getLsbD (k % 64) = bitOf m 0 k := by
    intro k hk; rw [← hk]; unfold bitOf; rw [Nat.zero_add]
  refine ⟨?_, ?_, ?_, ?_⟩
  · refine ⟨_, by unfold bitSet; simp only [rd_some h, bind, Option.bind]; rw [wr_some _ h], by simp, fun k => ?_⟩
    rw [bitOf_set _ h]
    by_cases hk : k / 64 = a + b / 64
    · rw [if_pos hk, BitVec.getLsbD_or, hw k hk, bit_bit]
      simp only [hb k hk]
      by_cases hx : k % 64 = b % 64 <;> simp [hx]
    · rw [if_neg hk, if_neg (by omega)]
  · refine ⟨_, by unfold bitClr; simp only [rd_some h, bind, Option.bind]; rw [wr_some _ h], by simp, fun k => ?_⟩
    rw [bitOf_set _ h]
    by_cases hk : k / 64 = a + b / 64
    · rw [if_pos hk, BitVec.getLsbD_and, BitVec.getLsbD_not, hw k hk, bit_bit]
      have : k % 64 < 64 := Nat.mod_lt _ (by omega)
      simp only [hb k hk]
      by_cases hx : k % 64 = b % 64
      · simp [hx]
      · simp [hx, this]
    · rw [if_neg hk, if_neg (by omega)]
  · refine ⟨_, by unfold bitFlip; simp only [rd_some h, bind, Option.bind]; rw [wr_some _ h], by simp, fun k => ?_⟩
    rw [bitOf_set _ h]
    by_cases hk : k / 64 = a + b / 64
    · rw [if_pos hk, BitVec.getLsbD_xor, hw k hk, bit_bit]
      by_cases hx : k = 64 * a + b
      · have := (hb k hk).1 hx
        subst hx
        simp [this, bitOf_shift m a b]
      · rw [if_neg hx]
        simp [mt (hb k hk).2 hx]
    · rw [if_neg hk, if_neg (by omega)]
  · unfold bitTest
    simp only [rd_some h, bind, Option.bind]
    refine congrArg some ?_
    rw [Bool.eq_iff_iff, bne_iff_ne, word_ne_zero]
    constructor
    · rintro ⟨i, hi, h1⟩
      rw [BitVec.getLsbD_and, bit_bit, Bool.and_eq_true, decide_eq_true_eq] at h1
      rw [← bitOf_word, ← h1.2]; exact h1.1
    · intro h1
      exact ⟨b % 64, Nat.mod_lt _ (by omega), by rw [BitVec.getLsbD_and, bit_bit, bitOf_word, h1]; simp⟩

theorem test_and_change {m : Mem} {a b : Nat} (h : a + b / 64 < m.length) (v : Bool) :
    bitTestSet m a b = (bitSet m a b).map (·, bitOf m a b) ∧ bitTestClr m a b = (bitClr m a b).map (·, bitOf m a b) ∧
    bitTestFlip m a b = (bitFlip m a b).map (·, bitOf m a b) ∧ bitTestChange m a b v = (bitChange m a b v).map (·, bitOf m a b) ∧
    bitChange m a b v = if v then bitSet m a b else bitClr m a b := by
  have ht := (single_bits h).2.2.2
  refine ⟨?_, ?_, ?_, ?_, rfl⟩
  · unfold bitTestSet; rw [ht]; cases bitSet m a b <;> rfl
  · unfold bitTestClr; rw [ht]; cases bitClr m a b <;> rfl
  · unfold bitTestFlip; rw [ht]; cases bitFlip m a b <;> rfl
  · unfold bitTestChange; rw [ht]; cases bitChange m a b v <;> rfl

/-- Hypotheses are met by an in-place operation, and by the concrete results. -/
example : NoOverlap 0 0 70 ∧ NoOverlap 0 2 70 := ⟨Or.inl rfl, Or.inr (Or.inl (by decide))⟩
example : bmAnd false [0xff#64, 0xffff#64, 0x0f#64, 0xffff#64] 0 0 2 70 = some ([0x0f#64, 0x3f#64, 0x0f#64, 0xffff#64], true) := by decide +kernel
example : bmEqual true [5#64, 5#64] 0 1 8 = some false ∧ bmEqual false [5#64, 5#64] 0 1 8 = some true := by decide +kernel

end Bfdev.Bitmap

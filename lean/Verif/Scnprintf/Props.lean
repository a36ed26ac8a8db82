import Verif.Scnprintf.Model
/-! C67. -/
namespace Bfdev.Scnprintf

/-- C67, when formatting succeeds: the result is the number of characters stored, which is less than the buffer size; a zero-sized buffer gives 0.
Missing: the case that `vsnprintf` reports an error (`error_violated`). -/
theorem scnprintf_partial (size : BitVec 64) (text : List UInt8) (hm : text.length < 2 ^ 31) :
    (vscnprintf size (BitVec.ofNat 32 text.length)).toInt = (if size = 0 then 0 else (stored size.toNat text).length : Nat) ∧
      (size ≠ 0 → (vscnprintf size (BitVec.ofNat 32 text.length)).toInt < size.toNat) := by
  have hl : ((BitVec.ofNat 32 text.length).signExtend 64).toNat = text.length := by
    rw [BitVec.signExtend_eq_setWidth_of_msb_false (by
      rw [BitVec.msb_eq_false_iff_two_mul_lt]; simp; omega)]
    simp; omega
  have hi : (BitVec.ofNat 32 text.length).toInt = text.length := by
    rw [BitVec.toInt_eq_toNat_cond]
    simp; omega
  unfold vscnprintf
  by_cases h0 : size = 0
  · simp [h0]
  · have hs : 0 < size.toNat := by
      rcases Nat.eq_zero_or_pos size.toNat with h | h
      · exact absurd (BitVec.eq_of_toNat_eq (by simpa using h)) h0
      · exact h
    rw [if_neg h0, if_neg h0, hl]
    by_cases h1 : text.length < size.toNat
    · rw [if_pos h1, hi]
      simp only [stored, List.length_take]
      constructor
      · omega
      · intro _; omega
    · rw [if_neg h1]
      have e : (size - 1).toNat = size.toNat - 1 := by
        rw [BitVec.toNat_sub]
        have := size.isLt
        simp
        omega
      have e2 : ((size - 1).setWidth 32).toInt = (size.toNat - 1 : Nat) := by
        rw [BitVec.toInt_eq_toNat_cond, BitVec.toNat_setWidth, e]
        have : (size.toNat - 1) % 2 ^ 32 = size.toNat - 1 := Nat.mod_eq_of_lt (by omega)
        rw [this, if_pos (by omega)]
      rw [e2]
      simp only [stored, List.length_take]
      constructor
      · rw [Nat.min_eq_left (by omega)]
      · intro _; omega

/-- C67 fails when formatting fails: for every buffer size from 2 to 2^31 an error is reported as `size - 1` characters stored. -/
theorem error_violated (size : BitVec 64) (len : BitVec 32) (h1 : 0 < size.toNat) (h2 : size.toNat ≤ 2 ^ 31) (hneg : len.toInt < 0) :
    (vscnprintf size len).toInt = size.toNat - 1 := by
  unfold vscnprintf
  have h0 : size ≠ 0 := by rintro rfl; simp at h1
  have hge : ¬ (len.signExtend 64).toNat < size.toNat := by
    have e := BitVec.toInt_signExtend_of_le (x := len) (v := 64) (by decide)
    rw [BitVec.toInt_eq_toNat_cond] at e
    have := BitVec.le_toInt len
    simp only [Nat.reducePow, Nat.reduceSub, Int.reducePow] at *
    split at e <;> omega
  rw [if_neg h0, if_neg hge]
  have e : (size - 1).toNat = size.toNat - 1 := by
    rw [BitVec.toNat_sub]
    have := size.isLt
    simp
    omega
  rw [BitVec.toInt_eq_toNat_cond, BitVec.toNat_setWidth, e, Nat.mod_eq_of_lt (by omega), if_pos (by omega)]
  omega

example : vscnprintf 8 (BitVec.ofNat 32 [1, 2, 3].length) = 3 ∧ vscnprintf 3 (BitVec.ofNat 32 [1, 2, 3].length) = 2 := by decide
example : vscnprintf 100 (BitVec.ofInt 32 (-1)) = 99 := by decide

end Bfdev.Scnprintf

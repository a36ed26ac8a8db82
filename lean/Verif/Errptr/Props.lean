import Verif.Errptr.Model
/-! C62. An error code is an `int` in `[-4096, -1]`; the last 4096 addresses are not ordinary pointers. -/
namespace Bfdev.Errptr

theorem errPtr_toInt (e : CInt) : (errPtr e).toInt = e.toInt := BitVec.toInt_signExtend_of_le (by decide)

/-- C62. Every `int` survives the way into a pointer and back. -/
theorem roundtrip (e : CInt) : ptrErr (errPtr e) = e := by
  unfold ptrErr errPtr
  apply BitVec.eq_of_getLsbD_eq
  intro i hi
  simp [BitVec.getLsbD_signExtend, hi]
  omega

theorem isErr_iff (p : Ptr) : isErr p = true ↔ 2 ^ 64 - 4096 ≤ p.toNat := by
  unfold isErr
  rw [decide_eq_true_eq, show (BitVec.ofInt 64 (-4096)).toNat = 2 ^ 64 - 4096 by decide]

/-- C62. An encoded `int` is recognised as an error iff it is an error code. -/
theorem isErr_errPtr (e : CInt) : isErr (errPtr e) = true ↔ -4096 ≤ e.toInt ∧ e.toInt ≤ -1 := by
  rw [isErr_iff]
  have h := errPtr_toInt e
  have h1 := (errPtr e).isLt
  have h2 := BitVec.toInt_eq_toNat_cond (errPtr e)
  have h3 := BitVec.le_toInt e
  have h4 := BitVec.toInt_lt (x := e)
  rw [h] at h2
  simp only [Nat.reducePow, Nat.reduceSub, Int.reducePow] at *
  split at h2 <;> omega

/-- C62. No ordinary pointer is taken for an error, and the null pointer is invalid without being an error. -/
theorem ordinary (p : Ptr) (h : p.toNat < 2 ^ 64 - 4096) :
    isErr p = false ∧ ptrErrZero p = 0 ∧ (p ≠ 0 → isInval p = false ∧ ptrInvalZero p = 0) ∧ (p = 0 → isInval p = true ∧ ptrInvalZero p = BitVec.ofInt 32 (-1)) := by
  have he : isErr p = false := by
    cases hh : isErr p with
    | false => rfl
    | true => rw [isErr_iff] at hh; omega
  refine ⟨he, by simp [ptrErrZero, he], fun hp => ?_, fun hp => ?_⟩
  · have : isInval p = false := by simpa [isInval, he] using hp
    exact ⟨this, by simp [ptrInvalZero, this]⟩
  · subst hp
    decide

/-- C62. The "or zero" accessors give the code back for an error pointer. -/
theorem code_of_error (e : CInt) (h : -4096 ≤ e.toInt ∧ e.toInt ≤ -1) :
    ptrErrZero (errPtr e) = e ∧ isInval (errPtr e) = true ∧ ptrInvalZero (errPtr e) = e := by
  have h1 := (isErr_errPtr e).2 h
  have h2 : isInval (errPtr e) = true := by simp [isInval, h1]
  have h3 : e ≠ 0 := by
    rintro rfl
    simp at h
  refine ⟨by simp [ptrErrZero, h1, roundtrip], h2, ?_⟩
  rw [ptrInvalZero, if_pos h2, ptrInval, roundtrip, if_pos h3]

example : isErr (errPtr (BitVec.ofInt 32 (-12))) = true ∧ ptrErr (errPtr (BitVec.ofInt 32 (-12))) = BitVec.ofInt 32 (-12) := by decide
example : isErr (0x7ffd12345678 : Ptr) = false := by decide

end Bfdev.Errptr

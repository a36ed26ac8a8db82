import Verif.Overflow.Model
/-!
C64. Specification: a type with `w` bits represents the numbers `-2^(w-1) .. 2^(w-1) - 1` if it is signed and `0 .. 2^w - 1` if not.
The saturation value has all bits set: the greatest number of an unsigned type, and -1 of a signed one.
-/
namespace Bfdev.Overflow

/-- The numbers of the type. -/
def Fits (t : Ty) (n : Int) : Prop := if t.signed then -2 ^ (t.width - 1) ≤ n ∧ n < 2 ^ (t.width - 1) else 0 ≤ n ∧ n < 2 ^ t.width

/-- The value given back when the result does not fit. -/
def satValue (t : Ty) : Int := if t.signed then -1 else 2 ^ t.width - 1

theorem val_fits (t : Ty) (hw : 0 < t.width) (v : BitVec t.width) : Fits t (t.val v) := by
  obtain ⟨sg, w⟩ := t
  simp only at hw v
  cases sg
  · have := v.isLt
    simp only [Fits, Ty.val, Bool.false_eq_true, if_false]
    constructor
    · omega
    · exact_mod_cast this
  · simp only [Fits, Ty.val, if_true]
    exact ⟨BitVec.le_toInt v, BitVec.toInt_lt⟩

theorem val_cast (t : Ty) (hw : 0 < t.width) (n : Int) (h : Fits t n) : t.val (t.cast n) = n := by
  obtain ⟨sg, w⟩ := t
  simp only at hw
  cases sg
  · simp only [Fits, Bool.false_eq_true, if_false] at h
    simp only [Ty.val, Ty.cast, Bool.false_eq_true, if_false, BitVec.toNat_ofInt]
    rw [Int.emod_eq_of_lt h.1 (by exact_mod_cast h.2)]
    omega
  · simp only [Fits, if_true] at h
    simp only [Ty.val, Ty.cast, if_true, BitVec.toInt_ofInt]
    exact Int.bmod_eq_of_le (by
      have : (2 : Int) ^ w = 2 * 2 ^ (w - 1) := by rw [← Int.pow_succ']; congr 1; omega
      have e : ((2 ^ w : Nat) : Int) = 2 ^ w := by norm_cast
      rw [e]; omega) (by
      have : (2 : Int) ^ w = 2 * 2 ^ (w - 1) := by rw [← Int.pow_succ']; congr 1; omega
      have e : ((2 ^ w : Nat) : Int) = 2 ^ w := by norm_cast
      rw [e]; omega)

theorem val_sat (t : Ty) (hw : 0 < t.width) : t.val (sat t) = satValue t := by
  obtain ⟨sg, w⟩ := t
  simp only at hw
  cases sg
  · simp only [Ty.val, sat, satValue, Bool.false_eq_true, if_false, BitVec.toNat_allOnes]
    have : 0 < 2 ^ w := Nat.two_pow_pos w
    rw [Int.ofNat_sub this]
    norm_cast
  · simp only [Ty.val, sat, satValue, if_true]
    rw [BitVec.toInt_allOnes]
    simp; omega

theorem builtin_correct (t : Ty) (hw : 0 < t.width) (n : Int) : ((builtin t n).2 = true ↔ ¬ Fits t n) ∧ (Fits t n → t.val (builtin t n).1 = n) := by
  unfold builtin
  simp only [bne_iff_ne, ne_eq]
  refine ⟨?_, fun h => val_cast t hw n h⟩
  constructor
  · intro h hf
    exact h (val_cast t hw n hf)
  · intro h he
    exact h (he ▸ val_fits t hw (t.cast n))

/-- C64. The checks report overflow iff the exact result is not a number of the type, and otherwise store the exact result. -/
theorem checks_correct (t : Ty) (hw : 0 < t.width) (a b : BitVec t.width) :
    (((checkAdd t a b).2 = true ↔ ¬ Fits t (t.val a + t.val b)) ∧ (Fits t (t.val a + t.val b) → t.val (checkAdd t a b).1 = t.val a + t.val b)) ∧
    (((checkSub t a b).2 = true ↔ ¬ Fits t (t.val a - t.val b)) ∧ (Fits t (t.val a - t.val b) → t.val (checkSub t a b).1 = t.val a - t.val b)) ∧
    (((checkMul t a b).2 = true ↔ ¬ Fits t (t.val a * t.val b)) ∧ (Fits t (t.val a * t.val b) → t.val (checkMul t a b).1 = t.val a * t.val b)) :=
  ⟨builtin_correct t hw _, builtin_correct t hw _, builtin_correct t hw _⟩

theorem sat_or_exact (t : Ty) (hw : 0 < t.width) (n : Int) :
    (Fits t n → t.val (if (builtin t n).2 then sat t else (builtin t n).1) = n) ∧ (¬ Fits t n → t.val (if (builtin t n).2 then sat t else (builtin t n).1) = satValue t) := by
  obtain ⟨h1, h2⟩ := builtin_correct t hw n
  constructor
  · intro h
    have : (builtin t n).2 = false := by
      cases hb : (builtin t n).2 with
      | false => rfl
      | true => exact absurd h (h1.1 hb)
    rw [this]; exact h2 h
  · intro h
    rw [h1.2 h]; exact val_sat t hw

/-- C64. For operands of the type, the operations return the exact result if it is a number of the type, and the saturation value otherwise. -/
theorem ops_correct (t : Ty) (hw : 0 < t.width) (a b : Int) (ha : Fits t a) (hb : Fits t b) :
    (Fits t (a + b) → t.val (addType t a b) = a + b) ∧ (¬ Fits t (a + b) → t.val (addType t a b) = satValue t) ∧
    (Fits t (a - b) → t.val (subType t a b) = a - b) ∧ (¬ Fits t (a - b) → t.val (subType t a b) = satValue t) ∧
    (Fits t (a * b) → t.val (mulType t a b) = a * b) ∧ (¬ Fits t (a * b) → t.val (mulType t a b) = satValue t) := by
  unfold addType subType mulType checkAdd checkSub checkMul
  simp only [val_cast t hw a ha, val_cast t hw b hb]
  exact ⟨(sat_or_exact t hw _).1, (sat_or_exact t hw _).2, (sat_or_exact t hw _).1, (sat_or_exact t hw _).2, (sat_or_exact t hw _).1, (sat_or_exact t hw _).2⟩

/-- Outside the property: an operand of a wider type is silently cut to the type of the first one. -/
theorem ops_cut_wide_operands : addType ⟨false, 8⟩ 1 256 = 1 := by decide

example : addType ⟨false, 8⟩ 200 55 = 255 ∧ addType ⟨false, 8⟩ 200 56 = 255 ∧ subType ⟨false, 8⟩ 3 5 = 255 ∧ mulType ⟨true, 8⟩ (-3) 5 = BitVec.ofInt 8 (-15) := by decide
example : addType ⟨true, 8⟩ 127 1 = BitVec.ofInt 8 (-1) := by decide

end Bfdev.Overflow

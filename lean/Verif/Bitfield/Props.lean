import Verif.Bitfield.Model
import Verif.Scan.Lemmas
/-!
C63. Specification: a field of `n` bits at position `s` is the mask whose bits `s .. s + n - 1` are set; the value of the field in a register `r` is
`r / 2^s % 2^n`.
-/
namespace Bfdev.Bitfield

/-- The mask has exactly the bits `s .. s + n - 1`. -/
def IsField {w : Nat} (mask : BitVec w) (s n : Nat) : Prop := 0 < n ∧ s + n ≤ w ∧ ∀ i, mask.getLsbD i = decide (s ≤ i ∧ i < s + n)

theorem shiftOf_field {w : Nat} (hw : w ≤ 64) {mask : BitVec w} {s n : Nat} (h : IsField mask s n) : shiftOf mask = some s := by
  obtain ⟨h1, h2, h3⟩ := h
  unfold shiftOf
  rw [Scan.ffsuf_some]
  refine ⟨?_, ?_⟩
  · rw [BitVec.getLsbD_setWidth, h3]
    simp; omega
  · intro j hj
    rw [BitVec.getLsbD_setWidth, h3]
    simp; omega

/-- C63. Reading a field. -/
theorem get_correct {w : Nat} (hw : w ≤ 64) {mask : BitVec w} {s n : Nat} (h : IsField mask s n) (reg : BitVec w) :
    ∃ v, fieldGet mask reg = some v ∧ v.toNat = reg.toNat / 2 ^ s % 2 ^ n := by
  unfold fieldGet
  rw [shiftOf_field hw h]
  refine ⟨_, rfl, ?_⟩
  apply Nat.eq_of_testBit_eq
  intro i
  have e1 : (((reg &&& mask) >>> s).toNat).testBit i = ((reg &&& mask) >>> s).getLsbD i := rfl
  have e2 : ∀ j, reg.toNat.testBit j = reg.getLsbD j := fun _ => rfl
  rw [e1, Nat.testBit_mod_two_pow, Nat.testBit_div_two_pow, e2]
  rw [BitVec.getLsbD_ushiftRight, BitVec.getLsbD_and, h.2.2]
  rw [Nat.add_comm i s]
  by_cases hi : i < n
  · have : decide (s ≤ s + i ∧ s + i < s + n) = true := by simp; omega
    simp [hi]
  · simp [hi]

/-- C63. Preparing a field touches no bit outside the mask, whatever the value and the (nonzero) mask. -/
theorem prep_inside {w : Nat} {mask : BitVec w} (val : BitVec w) {p : BitVec w} (h : fieldPrep mask val = some p) (i : Nat) (hi : mask.getLsbD i = false) :
    p.getLsbD i = false := by
  unfold fieldPrep at h
  cases hs : shiftOf mask with
  | none => rw [hs] at h; simp at h
  | some s =>
    rw [hs] at h
    simp only [Option.map_some, Option.some.injEq] at h
    rw [← h, BitVec.getLsbD_and, hi, Bool.and_false]

/-- C63. A value that fits is read back after preparing it, also when the rest of the register is filled. -/
theorem get_prep {w : Nat} (hw : w ≤ 64) {mask : BitVec w} {s n : Nat} (h : IsField mask s n) (val reg : BitVec w) (hv : val.toNat < 2 ^ n) :
    ∃ p, fieldPrep mask val = some p ∧ fieldGet mask p = some val ∧ fieldGet mask ((reg &&& ~~~mask) ||| p) = some val := by
  unfold fieldPrep fieldGet
  rw [shiftOf_field hw h]
  have hb : ∀ i, val.getLsbD i = true → i < n := by
    intro i hi
    have : val.toNat.testBit i = true := hi
    by_cases hc : i < n
    · exact hc
    · rw [Nat.testBit_lt_two_pow (Nat.lt_of_lt_of_le hv (Nat.pow_le_pow_right (by decide) (by omega)))] at this
      simp at this
  refine ⟨_, rfl, ?_, ?_⟩
  · simp only [Option.map_some, Option.some.injEq]
    apply BitVec.eq_of_getLsbD_eq
    intro i hi
    rw [BitVec.getLsbD_ushiftRight, BitVec.getLsbD_and, BitVec.getLsbD_and, BitVec.getLsbD_shiftLeft, h.2.2]
    have h2 := h.2.1
    cases hc : val.getLsbD i with
    | true =>
      have := hb i hc
      simp [hc]; omega
    | false => simp [hc]
  · simp only [Option.map_some, Option.some.injEq]
    apply BitVec.eq_of_getLsbD_eq
    intro i hi
    rw [BitVec.getLsbD_ushiftRight, BitVec.getLsbD_and, BitVec.getLsbD_or, BitVec.getLsbD_and, BitVec.getLsbD_and, BitVec.getLsbD_not, BitVec.getLsbD_shiftLeft, h.2.2]
    have h2 := h.2.1
    cases hc : val.getLsbD i with
    | true =>
      have := hb i hc
      simp [hc]; omega
    | false => simp [hc]

/-- C63. The largest value of a field. -/
theorem max_correct {w : Nat} (hw : w ≤ 64) {mask : BitVec w} {s n : Nat} (h : IsField mask s n) : ∃ v, fieldMax mask = some v ∧ v.toNat = 2 ^ n - 1 := by
  unfold fieldMax
  rw [shiftOf_field hw h]
  refine ⟨_, rfl, ?_⟩
  apply Nat.eq_of_testBit_eq
  intro i
  have e1 : ((mask >>> s).toNat).testBit i = (mask >>> s).getLsbD i := rfl
  rw [e1, Nat.testBit_two_pow_sub_one, BitVec.getLsbD_ushiftRight, h.2.2]
  rw [decide_eq_decide]; omega

/-- C63, the fit test, for values below `2^(w-s)`. Missing: greater values, whose upper bits the test shifts out of the word (`fit_violated`). -/
theorem fit_partial {w : Nat} (hw : w ≤ 64) {mask : BitVec w} {s n : Nat} (h : IsField mask s n) (val : BitVec w) (hv : val.toNat < 2 ^ (w - s)) :
    fieldFit mask val = some (decide (val.toNat < 2 ^ n)) := by
  unfold fieldFit
  rw [shiftOf_field hw h]
  simp only [Option.map_some, Option.some.injEq]
  rw [Bool.eq_iff_iff, beq_iff_eq, decide_eq_true_eq]
  have h2 := h.2.1
  constructor
  · intro hz
    apply Nat.lt_of_not_le
    intro hge
    obtain ⟨i, hi, hb⟩ := Nat.exists_ge_and_testBit_of_ge_two_pow hge
    have hb2 : val.getLsbD i = true := hb
    have hiw : i < w - s := by
      by_cases hc : i < w - s
      · exact hc
      · rw [Nat.testBit_lt_two_pow (Nat.lt_of_lt_of_le hv (Nat.pow_le_pow_right (by decide) (by omega)))] at hb
        simp at hb
    have := congrArg (fun x => x.getLsbD (s + i)) hz
    simp only [BitVec.getLsbD_and, BitVec.getLsbD_not, BitVec.getLsbD_shiftLeft, h.2.2] at this
    simp [hb2] at this
    omega
  · intro hlt
    apply BitVec.eq_of_getLsbD_eq
    intro i hi
    rw [BitVec.getLsbD_and, BitVec.getLsbD_not, BitVec.getLsbD_shiftLeft, h.2.2]
    by_cases hc : s ≤ i ∧ i < s + n
    · simp [hc]
    · by_cases hc2 : i < s
      · simp [hc2]
      · have : val.getLsbD (i - s) = false := by
          show val.toNat.testBit (i - s) = false
          exact Nat.testBit_lt_two_pow (Nat.lt_of_lt_of_le hlt (Nat.pow_le_pow_right (by decide) (by omega)))
        simp [this]

/-- The fit test accepts values that do not fit: 2 in the one-bit field at the top of a 32-bit register. -/
theorem fit_violated : ∃ (mask val : BitVec 32), IsField mask 31 1 ∧ ¬ val.toNat < 2 ^ 1 ∧ fieldFit mask val = some true := by
  refine ⟨0x80000000, 2, ⟨by decide, by decide, fun i => ?_⟩, by decide, by decide +kernel⟩
  by_cases h : i < 32
  · have : ∀ i : Fin 32, (0x80000000 : BitVec 32).getLsbD i.val = decide (31 ≤ i.val ∧ i.val < 31 + 1) := by decide
    exact this ⟨i, h⟩
  · rw [BitVec.getLsbD_of_ge _ _ (by omega)]
    simp; omega

theorem exField : IsField (0xff0 : BitVec 32) 4 8 := by
  refine ⟨by decide, by decide, fun i => ?_⟩
  by_cases h : i < 32
  · have : ∀ i : Fin 32, (0xff0 : BitVec 32).getLsbD i.val = decide (4 ≤ i.val ∧ i.val < 4 + 8) := by decide
    exact this ⟨i, h⟩
  · rw [BitVec.getLsbD_of_ge _ _ (by omega)]
    simp; omega
example : fieldGet (0xff0 : BitVec 32) 0x12345678 = some 0x67 := by decide +kernel
example : fieldPrep (0xff0 : BitVec 32) 0x167 = some 0x670 := by decide +kernel

end Bfdev.Bitfield

import Verif.Bcd.Model
/-! Property theorems for BCD conversion (C51). -/
namespace Bfdev.Bcd

/-- Specification: the byte whose high digit is `n / 10` and whose low digit is `n % 10`. -/
def bcdOf (n : Nat) : Nat := 16 * (n / 10) + n % 10
/-- Specification: both hexadecimal digits are decimal digits. -/
def ValidBcd (b : BitVec 8) : Prop := b.toNat % 16 < 10 ∧ b.toNat / 16 < 10
instance (b : BitVec 8) : Decidable (ValidBcd b) := by unfold ValidBcd; infer_instance

/-- **C51, encoding.** Both variants encode every number below 100 as its two decimal digits. -/
theorem bin2bcd_correct : ∀ b : BitVec 8, b.toNat < 100 →
    bin2bcdConst b = bcdOf b.toNat ∧ bin2bcdDynamic b = bcdOf b.toNat := by decide +kernel

/-- **C51, decoding.** Both variants decode every valid BCD byte to `10 * high + low`. -/
theorem bcd2bin_correct : ∀ b : BitVec 8, ValidBcd b →
    bcd2binConst b = 10 * (b.toNat / 16) + b.toNat % 16 ∧ bcd2binDynamic b = 10 * (b.toNat / 16) + b.toNat % 16 := by
  decide +kernel

/-- **C51, round trip.** On numbers below 100 the two directions are inverse, in every combination of variants. -/
theorem bcd_roundtrip : ∀ b : BitVec 8, b.toNat < 100 →
    bcd2binConst (BitVec.ofNat 8 (bin2bcdConst b)) = b.toNat ∧ bcd2binDynamic (BitVec.ofNat 8 (bin2bcdDynamic b)) = b.toNat ∧
    bcd2binConst (BitVec.ofNat 8 (bin2bcdDynamic b)) = b.toNat ∧ bcd2binDynamic (BitVec.ofNat 8 (bin2bcdConst b)) = b.toNat := by
  decide +kernel

/-- **C51, round trip the other way.** On valid BCD bytes. -/
theorem bcd_roundtrip' : ∀ b : BitVec 8, ValidBcd b →
    bin2bcdConst (BitVec.ofNat 8 (bcd2binConst b)) = b.toNat ∧ bin2bcdDynamic (BitVec.ofNat 8 (bcd2binDynamic b)) = b.toNat := by
  decide +kernel

/-- **C51, rejection.** The table variants answer 255 exactly on the inputs outside their domain. -/
theorem bcd_dynamic_rejects : ∀ b : BitVec 8,
    (bcd2binDynamic b = 255 ↔ ¬ ValidBcd b) ∧ (bin2bcdDynamic b = 255 ↔ 100 ≤ b.toNat) := by decide +kernel

/-- **C51, agreement of the variants fails** on invalid input (within the property only valid input is promised to agree). -/
theorem bcd_variants_disagree_outside :
    bcd2binConst 0xaa#8 = 110 ∧ bcd2binDynamic 0xaa#8 = 255 ∧ bin2bcdConst 100#8 = 160 ∧ bin2bcdDynamic 100#8 = 255 := by
  decide +kernel

example : ValidBcd 0x47#8 ∧ bcd2binConst 0x47#8 = 47 ∧ bin2bcdConst 47#8 = 0x47 := by decide +kernel

end Bfdev.Bcd

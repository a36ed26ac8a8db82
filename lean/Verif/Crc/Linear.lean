import Verif.Crc.Model
import Verif.Crc.Spec
/-!
Linearity of the register shifts, and the byte-wise view of a checksum.
-/
namespace Bfdev.Crc

def iter {α : Type} (f : α → α) : Nat → α → α
  | 0, x => x
  | n + 1, x => iter f n (f x)

theorem iter_succ' {α : Type} (f : α → α) (n : Nat) (x : α) : iter f (n + 1) x = f (iter f n x) := by
  induction n generalizing x with
  | zero => rfl
  | succ n ih => rw [iter, ih]; rfl

theorem iter_add {α : Type} (f : α → α) (m n : Nat) (x : α) : iter f (m + n) x = iter f n (iter f m x) := by
  induction m generalizing x with
  | zero => rw [Nat.zero_add]; rfl
  | succ m ih => rw [Nat.succ_add, iter, ih]; rfl

theorem xor_lc {w : Nat} (x y z : BitVec w) : x ^^^ (y ^^^ z) = y ^^^ (x ^^^ z) := by
  rw [← BitVec.xor_assoc, BitVec.xor_comm x y, BitVec.xor_assoc]

theorem xor_cancel {w : Nat} (x y : BitVec w) : x ^^^ (x ^^^ y) = y := by
  rw [← BitVec.xor_assoc, BitVec.xor_self, BitVec.zero_xor]

/-- A map that respects exclusive or. -/
def Linear {v w : Nat} (f : BitVec v → BitVec w) : Prop := ∀ x y, f (x ^^^ y) = f x ^^^ f y

theorem Linear.zero {v w : Nat} {f : BitVec v → BitVec w} (h : Linear f) : f 0 = 0 := by
  have h1 := h 0 0
  simp only [BitVec.xor_self] at h1
  exact h1

theorem Linear.iter {w : Nat} {f : BitVec w → BitVec w} (h : Linear f) (n : Nat) : Linear (iter f n) := by
  intro x y
  induction n generalizing x y with
  | zero => rfl
  | succ n ih => simp only [Crc.iter]; rw [h, ih]

theorem linear_shiftLe {w : Nat} (poly : BitVec w) : Linear (shiftLe poly) := by
  intro x y
  unfold shiftLe
  rw [BitVec.ushiftRight_xor_distrib, BitVec.getLsbD_xor]
  cases x.getLsbD 0 <;> cases y.getLsbD 0 <;> simp [BitVec.xor_assoc, BitVec.xor_comm, xor_lc, xor_cancel]

theorem linear_shiftBe {w : Nat} (poly : BitVec w) : Linear (shiftBe poly) := by
  intro x y
  unfold shiftBe
  rw [BitVec.shiftLeft_xor_distrib, BitVec.msb_xor]
  cases x.msb <;> cases y.msb <;> simp [BitVec.xor_assoc, BitVec.xor_comm, xor_lc, xor_cancel]

/-- A word whose low bits are clear just moves down. -/
theorem shiftLe_double {w : Nat} (poly : BitVec w) (d : Nat) (h : 2 * d < 2 ^ w) : shiftLe poly (BitVec.ofNat w (2 * d)) = BitVec.ofNat w d := by
  unfold shiftLe
  have h1 : (BitVec.ofNat w (2 * d)).getLsbD 0 = false := by
    simp [BitVec.getLsbD_ofNat, Nat.testBit_zero]
  rw [h1, if_neg (by simp), show (0 : BitVec w) = 0#w from rfl, BitVec.xor_zero]
  apply BitVec.eq_of_toNat_eq
  simp only [ BitVec.toNat_ushiftRight, BitVec.toNat_ofNat, Nat.shiftRight_eq_div_pow]
  rw [Nat.mod_eq_of_lt h, Nat.mod_eq_of_lt (by omega)]
  omega

theorem ofNat_xor {w : Nat} (a b : Nat) : BitVec.ofNat w (a ^^^ b) = BitVec.ofNat w a ^^^ BitVec.ofNat w b := by
  apply BitVec.eq_of_getLsbD_eq
  intro i hi
  simp [BitVec.getLsbD_ofNat, Nat.testBit_xor, hi]

theorem low_xor (d : Nat) : d = (d % 2) ^^^ (2 * (d / 2)) := by
  have h := Nat.two_pow_add_eq_or_of_lt (i := 1) (b := d % 2) (by omega) (d / 2)
  have h2 : 2 ^ 1 * (d / 2) ||| d % 2 = (d % 2) ^^^ (2 * (d / 2)) := by
    apply Nat.eq_of_testBit_eq
    intro i
    rw [Nat.testBit_or, Nat.testBit_xor, Nat.pow_one]
    rcases Nat.eq_zero_or_pos i with e | e
    · subst e; simp [Nat.testBit_zero]
    · have : (d % 2).testBit i = false := Nat.testBit_lt_two_pow (Nat.lt_of_lt_of_le (Nat.mod_lt _ (by omega)) (by
        have := Nat.pow_le_pow_right (n := 2) (by omega) e; simpa using this))
      rw [this, Bool.or_false, Bool.false_xor]
  rw [← h2, ← h]
  omega

theorem serialLe_shift {w : Nat} (hw : 0 < w) (poly c : BitVec w) (b : Bool) : serialLe poly c b = shiftLe poly (c ^^^ BitVec.ofNat w b.toNat) := by
  unfold serialLe shiftLe
  rw [BitVec.ushiftRight_xor_distrib, BitVec.getLsbD_xor]
  have h1 : (BitVec.ofNat w b.toNat) >>> 1 = 0#w := by
    apply BitVec.eq_of_toNat_eq
    have := Bool.toNat_le b
    have h2 : (2 : Nat) ≤ 2 ^ w := by
      have := Nat.pow_le_pow_right (n := 2) (by omega) hw; simpa using this
    simp only [BitVec.toNat_ushiftRight, BitVec.toNat_ofNat, Nat.shiftRight_eq_div_pow]
    rw [Nat.mod_eq_of_lt (by omega), Nat.zero_mod]
    omega
  have h2 : (BitVec.ofNat w b.toNat).getLsbD 0 = b := by
    cases b <;> simp [BitVec.getLsbD_ofNat, hw]
  rw [h1, h2, BitVec.xor_zero]

/-- Bits from the low end, `n` of them. -/
def lowBits : Nat → Nat → List Bool
  | 0, _ => []
  | n + 1, d => d.testBit 0 :: lowBits n (d / 2)

theorem serial_lowBits {w : Nat} (poly : BitVec w) : ∀ n, n ≤ w → ∀ d, d < 2 ^ n → ∀ c : BitVec w,
    (lowBits n d).foldl (serialLe poly) c = iter (shiftLe poly) n (c ^^^ BitVec.ofNat w d) := by
  intro n
  induction n with
  | zero =>
    intro _ d hd c
    have : d = 0 := by simp at hd; omega
    subst this
    simp [lowBits, iter]
  | succ n ih =>
    intro hn d hd c
    rw [Nat.pow_succ] at hd
    rw [lowBits, List.foldl_cons, ih (by omega) _ (by omega), iter]
    congr 1
    rw [serialLe_shift (by omega), linear_shiftLe]
    conv => rhs; rw [linear_shiftLe, low_xor d, ofNat_xor, linear_shiftLe]
    have hp : 2 ^ n * 2 ≤ 2 ^ w := by
      rw [← Nat.pow_succ]; exact Nat.pow_le_pow_right (by omega) hn
    rw [shiftLe_double poly (d / 2) (by omega), BitVec.xor_assoc]
    congr 3
    rw [Nat.testBit_zero]
    rcases Nat.mod_two_eq_zero_or_one d with e | e <;> simp [e]

theorem bitsLe_eq (d : Byte) : bitsLe d = lowBits 8 d.toNat := by
  revert d; decide +kernel

/-- C60 (byte-wise): a byte of the message is eight shifts of the register with the byte added at its low end. -/
theorem serialLe_byte {w : Nat} (hw : 8 ≤ w) (poly c : BitVec w) (d : Byte) :
    (bitsLe d).foldl (serialLe poly) c = iter (shiftLe poly) 8 (c ^^^ d.setWidth w) := by
  rw [bitsLe_eq, serial_lowBits poly 8 hw _ d.isLt, BitVec.ofNat_toNat]

/-! Big endian. -/

/-- Bits from the high end of an `n`-bit number. -/
def highBits : Nat → Nat → List Bool
  | 0, _ => []
  | n + 1, d => d.testBit n :: highBits n (d % 2 ^ n)

theorem serialBe_shift {w : Nat} (hw : 0 < w) (poly c : BitVec w) (b : Bool) :
    serialBe poly c b = shiftBe poly (c ^^^ (BitVec.ofNat w b.toNat <<< (w - 1))) := by
  unfold serialBe shiftBe
  rw [BitVec.shiftLeft_xor_distrib, BitVec.msb_xor]
  have h1 : (BitVec.ofNat w b.toNat <<< (w - 1)) <<< 1 = 0#w := by
    rw [← BitVec.shiftLeft_add]
    exact BitVec.shiftLeft_eq_zero (by omega)
  have h2 : (BitVec.ofNat w b.toNat <<< (w - 1)).msb = b := by
    rw [BitVec.msb_eq_getLsbD_last, BitVec.getLsbD_shiftLeft]
    have : w - 1 < w := by omega
    cases b <;> simp [hw, this]
  rw [h1, h2, BitVec.xor_zero]

theorem shiftBe_low {w : Nat} (poly : BitVec w) (d n : Nat) (hn : n < w) (h : d < 2 ^ n) :
    shiftBe poly (BitVec.ofNat w d <<< (w - 1 - n)) = BitVec.ofNat w d <<< (w - n) := by
  unfold shiftBe
  have h1 : (BitVec.ofNat w d <<< (w - 1 - n)).msb = false := by
    rw [BitVec.msb_eq_getLsbD_last, BitVec.getLsbD_shiftLeft, show w - 1 - (w - 1 - n) = n by omega, BitVec.getLsbD_ofNat, Nat.testBit_lt_two_pow h]
    simp
  rw [h1, ← BitVec.shiftLeft_add, show w - 1 - n + 1 = w - n by omega]
  simp

theorem high_xor (d n : Nat) (h : d < 2 ^ (n + 1)) : d = (2 ^ n * (d.testBit n).toNat) ^^^ (d % 2 ^ n) := by
  apply Nat.eq_of_testBit_eq
  intro i
  rw [Nat.testBit_xor, Nat.testBit_mod_two_pow, Nat.testBit_two_pow_mul]
  rcases Nat.lt_trichotomy i n with h1 | h1 | h1
  · have : ¬ n ≤ i := by omega
    simp [h1, this]
  · subst h1; cases h2 : d.testBit i <;> simp
  · have h3 : d.testBit i = false := Nat.testBit_lt_two_pow (Nat.lt_of_lt_of_le h (Nat.pow_le_pow_right (by omega) h1))
    have h4 : ((d.testBit n).toNat).testBit (i - n) = false := Nat.testBit_lt_two_pow (by
      have := Bool.toNat_le (d.testBit n)
      have h2 : (2 : Nat) ≤ 2 ^ (i - n) := by
        have := Nat.pow_le_pow_right (n := 2) (by omega) (show 1 ≤ i - n by omega); simpa using this
      omega)
    rw [h3, h4]
    simp

theorem serial_highBits {w : Nat} (poly : BitVec w) : ∀ n, n ≤ w → ∀ d, d < 2 ^ n → ∀ c : BitVec w,
    (highBits n d).foldl (serialBe poly) c = iter (shiftBe poly) n (c ^^^ (BitVec.ofNat w d <<< (w - n))) := by
  intro n
  induction n with
  | zero =>
    intro _ d hd c
    have : d = 0 := by simp at hd; omega
    subst this
    simp [highBits, iter]
  | succ n ih =>
    intro hn d hd c
    rw [highBits, List.foldl_cons, ih (by omega) _ (Nat.mod_lt _ (Nat.two_pow_pos n)), iter]
    congr 1
    rw [serialBe_shift (by omega), linear_shiftBe]
    conv => rhs; rw [linear_shiftBe, high_xor d n hd, ofNat_xor, BitVec.shiftLeft_xor_distrib, linear_shiftBe]
    rw [show w - (n + 1) = w - 1 - n by omega, shiftBe_low poly (d % 2 ^ n) n (by omega) (Nat.mod_lt _ (Nat.two_pow_pos n)), BitVec.xor_assoc]
    congr 3
    apply BitVec.eq_of_toNat_eq
    simp only [BitVec.toNat_shiftLeft, BitVec.toNat_ofNat, Nat.shiftLeft_eq]
    rw [Nat.mod_mul_mod, Nat.mod_mul_mod, Nat.mul_comm (2 ^ n), Nat.mul_assoc, ← Nat.pow_add, show n + (w - 1 - n) = w - 1 by omega]

theorem bitsBe_eq (d : Byte) : bitsBe d = highBits 8 d.toNat := by
  revert d; decide +kernel

/-- C60 (byte-wise), plain form. -/
theorem serialBe_byte {w : Nat} (hw : 8 ≤ w) (poly c : BitVec w) (d : Byte) :
    (bitsBe d).foldl (serialBe poly) c = iter (shiftBe poly) 8 (c ^^^ (d.setWidth w <<< (w - 8))) := by
  rw [bitsBe_eq, serial_highBits poly 8 hw _ d.isLt, BitVec.ofNat_toNat]

end Bfdev.Crc

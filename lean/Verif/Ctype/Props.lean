import Verif.Ctype.Model
import Verif.Ctype.Spec
/-!
C89: character classes.
-/
namespace Bfdev.Ctype

/-- The run-time test for a class. -/
def Class.dynamic : Class → Int → Bool
  | .upper => isupperDynamic
  | .lower => islowerDynamic
  | .alpha => isalphaDynamic
  | .digit => isdigitDynamic
  | .alnum => isalnumDynamic
  | .xdigit => isxdigitDynamic
  | .punct => ispunctDynamic
  | .graph => isgraphDynamic
  | .print => isprintDynamic
  | .space => isspaceDynamic
  | .blank => isblankDynamic
  | .cntrl => iscntrlDynamic
  | .ascii => isasciiDynamic

/-- The compile-time test for a class. -/
def Class.const : Class → Int → Bool
  | .upper => isupperConst
  | .lower => islowerConst
  | .alpha => isalphaConst
  | .digit => isdigitConst
  | .alnum => isalnumConst
  | .xdigit => isxdigitConst
  | .punct => ispunctConst
  | .graph => isgraphConst
  | .print => isprintConst
  | .space => isspaceConst
  | .blank => isblankConst
  | .cntrl => iscntrlConst
  | .ascii => asciiConst

theorem uchar_lt (c : Int) : uchar c < 256 := by unfold uchar; omega

theorem uchar_cast (c : Int) : uchar (uchar c : Int) = uchar c := by unfold uchar; omega

theorem dynamic_uchar (k : Class) (c : Int) : k.dynamic c = k.dynamic (uchar c : Int) := by
  cases k <;> simp only [Class.dynamic, isupperDynamic, islowerDynamic, iscntrlDynamic, ispunctDynamic, isblankDynamic, isdigitDynamic, isxdigitDynamic, isspaceDynamic,
    isasciiDynamic, isalphaDynamic, isalnumDynamic, isgraphDynamic, isprintDynamic, dynamic, uchar_cast]

theorem dynamic_table : ∀ u : Fin 128,
    Class.upper.dynamic (u.val : Int) = Class.upper.has u.val ∧ Class.lower.dynamic (u.val : Int) = Class.lower.has u.val ∧
    Class.alpha.dynamic (u.val : Int) = Class.alpha.has u.val ∧ Class.digit.dynamic (u.val : Int) = Class.digit.has u.val ∧
    Class.alnum.dynamic (u.val : Int) = Class.alnum.has u.val ∧ (u.val ≠ 48 → Class.xdigit.dynamic (u.val : Int) = Class.xdigit.has u.val) ∧
    Class.punct.dynamic (u.val : Int) = Class.punct.has u.val ∧ Class.graph.dynamic (u.val : Int) = Class.graph.has u.val ∧
    Class.print.dynamic (u.val : Int) = Class.print.has u.val ∧ Class.space.dynamic (u.val : Int) = Class.space.has u.val ∧
    (u.val ≠ 9 → u.val ≠ 11 → Class.blank.dynamic (u.val : Int) = Class.blank.has u.val) ∧ Class.cntrl.dynamic (u.val : Int) = Class.cntrl.has u.val ∧
    Class.ascii.dynamic (u.val : Int) = Class.ascii.has u.val := by decide +kernel

/-- C89, as far as it holds at run time: for every `int` whose low byte is an ASCII character, every test answers whether that character is in the class, except for
the hexadecimal digit 0, and tab and vertical tab as blanks. -/
theorem dynamic_partial (k : Class) (c : Int) (h : uchar c < 128) (h0 : k = .xdigit → uchar c ≠ 48) (hb : k = .blank → uchar c ≠ 9 ∧ uchar c ≠ 11) :
    k.dynamic c = k.has (uchar c) := by
  rw [dynamic_uchar]
  obtain ⟨a1, a2, a3, a4, a5, a6, a7, a8, a9, a10, a11, a12, a13⟩ := dynamic_table ⟨uchar c, h⟩
  cases k with
  | xdigit => exact a6 (h0 rfl)
  | blank => exact a11 (hb rfl).1 (hb rfl).2
  | _ => assumption

/-- C89 fails at run time: 0 is not a hexadecimal digit, tab is not blank, vertical tab is. -/
theorem dynamic_violated : isxdigitDynamic 48 = false ∧ isblankDynamic 9 = false ∧ isblankDynamic 11 = true ∧
    Class.xdigit.has 48 = true ∧ Class.blank.has 9 = true ∧ Class.blank.has 11 = false := by decide +kernel

theorem dynamic_high : ∀ u : Fin 256, 128 ≤ u.val → Class.ascii.dynamic (u.val : Int) = false ∧ Class.digit.dynamic (u.val : Int) = false ∧ Class.xdigit.dynamic (u.val : Int) = false ∧
    Class.cntrl.dynamic (u.val : Int) = false ∧ (Class.upper.dynamic (u.val : Int) && Class.lower.dynamic (u.val : Int)) = false := by decide +kernel

/-- The smallest character of a class. -/
def Class.first : Class → Nat
  | .upper => 0x41
  | .lower => 0x61
  | .digit => 0x30
  | .graph => 0x21
  | .print => 0x20
  | .space => 0x09
  | _ => 0

theorem const_table : ∀ u : Fin 256,
    (65 ≤ u.val → Class.upper.const (u.val : Int) = Class.upper.has u.val) ∧ (97 ≤ u.val → Class.lower.const (u.val : Int) = Class.lower.has u.val) ∧
    (48 ≤ u.val → Class.digit.const (u.val : Int) = Class.digit.has u.val) ∧ (33 ≤ u.val → Class.graph.const (u.val : Int) = Class.graph.has u.val) ∧
    (32 ≤ u.val → Class.print.const (u.val : Int) = Class.print.has u.val) ∧ (9 ≤ u.val → Class.space.const (u.val : Int) = Class.space.has u.val) ∧
    (65 ≤ u.val → (u.val < 91 ∨ 96 < u.val) → Class.alpha.const (u.val : Int) = Class.alpha.has u.val) ∧
    (65 ≤ u.val → (u.val < 91 ∨ 96 < u.val) → Class.alnum.const (u.val : Int) = Class.alnum.has u.val) ∧
    (48 ≤ u.val → (u.val < 58 ∨ 64 < u.val) → u.val ≠ 96 → Class.xdigit.const (u.val : Int) = Class.xdigit.has u.val) ∧
    (65 ≤ u.val → u.val ≠ 96 → Class.punct.const (u.val : Int) = Class.punct.has u.val) ∧
    Class.blank.const (u.val : Int) = Class.blank.has u.val ∧ Class.cntrl.const (u.val : Int) = Class.cntrl.has u.val ∧ Class.ascii.const (u.val : Int) = Class.ascii.has u.val := by
  decide +kernel

/-- C89, as far as it holds at compile time: for every character, the tests for blanks, control characters and ASCII; the others for characters that are not below the class. -/
theorem const_partial (k : Class) (c : Int) (h : 0 ≤ c ∧ c < 256) (hk : k = .blank ∨ k = .cntrl ∨ k = .ascii ∨ k = .upper ∨ k = .lower ∨ k = .digit ∨ k = .graph ∨ k = .print ∨ k = .space)
    (hf : k.first ≤ c.toNat) : k.const c = k.has c.toNat := by
  obtain ⟨u, rfl⟩ := Int.eq_ofNat_of_zero_le h.1
  obtain ⟨a1, a2, a3, a4, a5, a6, -, -, -, -, a11, a12, a13⟩ := const_table ⟨u, by omega⟩
  rcases hk with rfl | rfl | rfl | rfl | rfl | rfl | rfl | rfl | rfl
  · exact a11
  · exact a12
  · exact a13
  · exact a1 hf
  · exact a2 hf
  · exact a3 hf
  · exact a4 hf
  · exact a5 hf
  · exact a6 hf

/-- C89 fails at compile time for every character below the class: the difference is negative and counts as in range. -/
theorem const_violated (k : Class) (c : Int) (hk : k = .upper ∨ k = .lower ∨ k = .digit ∨ k = .graph ∨ k = .print ∨ k = .space) (h : uchar c < k.first) :
    k.const c = true ∧ k.has (uchar c) = false := by
  rcases hk with rfl | rfl | rfl | rfl | rfl | rfl <;> simp only [Class.first] at h <;>
    simp only [Class.const, isupperConst, islowerConst, isdigitConst, isgraphConst, isprintConst, isspaceConst, Class.has, decide_eq_true_eq, Bool.and_eq_false_iff,
      Bool.or_eq_false_iff, decide_eq_false_iff_not, beq_eq_false_iff_ne] <;> omega

/-- C89, the classes with letters at compile time: right for the letters, for the characters above them, and for those between the ranges named. -/
theorem const_letters_partial (c : Int) (h : 0 ≤ c ∧ c < 256) :
    ((65 ≤ c ∧ c < 91 ∨ 96 < c) → isalphaConst c = Class.alpha.has c.toNat ∧ isalnumConst c = Class.alnum.has c.toNat) ∧
    ((48 ≤ c ∧ c < 58 ∨ 64 < c) → c ≠ 96 → isxdigitConst c = Class.xdigit.has c.toNat) ∧
    (65 ≤ c → c ≠ 96 → ispunctConst c = Class.punct.has c.toNat) := by
  obtain ⟨u, rfl⟩ := Int.eq_ofNat_of_zero_le h.1
  obtain ⟨-, -, -, -, -, -, a7, a8, a9, a10, -, -, -⟩ := const_table ⟨u, by omega⟩
  dsimp only at a7 a8 a9 a10
  exact ⟨fun g => ⟨a7 (by omega) (by omega), a8 (by omega) (by omega)⟩, fun g g2 => a9 (by omega) (by omega) (by omega), fun g g2 => a10 (by omega) (by omega)⟩

/-- C89 fails at compile time for the classes of letters: a digit counts as a letter, `:` as a hexadecimal digit, `!` as alphanumeric and not as punctuation. -/
theorem const_letters_violated : isalphaConst 0x30 = true ∧ isxdigitConst 0x3a = true ∧ isalnumConst 0x21 = true ∧ ispunctConst 0x21 = false ∧
    Class.alpha.has 0x30 = false ∧ Class.xdigit.has 0x3a = false ∧ Class.alnum.has 0x21 = false ∧ Class.punct.has 0x21 = true := by decide +kernel

/-- C89. Case conversion, with the tests of the C library in the C locale: letters are exchanged for the letter of the other case, 32 codes away, and everything else
in the range of `unsigned char` is left alone. -/
theorem case_correct (isupper islower : Int → Bool) (hu : ∀ u : Nat, u < 256 → isupper u = Class.upper.has u) (hl : ∀ u : Nat, u < 256 → islower u = Class.lower.has u)
    (u : Nat) (h : u < 256) :
    tolower isupper u = (if Class.upper.has u then u + 32 else u) ∧ toupper islower u = (if Class.lower.has u then u - 32 else u) := by
  rw [tolower, toupper, hu u h, hl u h]
  have key : ∀ u : Fin 256, (if Class.upper.has u.val = true then uchar u.val ||| 32 else uchar u.val) = (if Class.upper.has u.val = true then u.val + 32 else u.val) ∧
      (if Class.lower.has u.val = true then uchar u.val &&& 0x5f else uchar u.val) = (if Class.lower.has u.val = true then u.val - 32 else u.val) := by decide +kernel
  exact key ⟨u, h⟩

/-- C89. The ASCII conversion clears everything but the low seven bits. -/
theorem toascii_correct (c : Int) : (toascii c : Int) = c % 128 := by
  have : toascii c = uchar c % 128 := Nat.and_two_pow_sub_one_eq_mod (uchar c) 7
  rw [this]
  unfold uchar
  omega

example : isxdigitDynamic 0x66 = true ∧ isxdigitDynamic 0x67 = false ∧ isalnumDynamic (0x41 - 256) = true := by decide +kernel

end Bfdev.Ctype

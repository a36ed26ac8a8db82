/-!
The alignment macros of `include/bfdev/align.h` on operands of any integer types, with the conversions of C on the modelled machine (64-bit LP64, two's complement).
The macros are untyped: the type of the value and the type of the alignment are the caller's.
-/
namespace Bfdev.Align

/-- An integer type of C: `_Bool` excepted, its signedness and width. `long` and `long long` have the same width here. -/
structure Ty where
  signed : Bool
  bits : Nat
deriving DecidableEq, Repr

/-- The widths there are. -/
def Ty.Std (t : Ty) : Prop := t.bits = 8 ∨ t.bits = 16 ∨ t.bits = 32 ∨ t.bits = 64

/-- The values of a type. -/
def Ty.Holds (t : Ty) (v : Int) : Prop := if t.signed then -2 ^ (t.bits - 1) ≤ v ∧ v < 2 ^ (t.bits - 1) else 0 ≤ v ∧ v < 2 ^ t.bits

instance (t : Ty) (v : Int) : Decidable (t.Holds v) := by unfold Ty.Holds; infer_instance

/-- What a pattern of bits means in a type. -/
def Ty.read (t : Ty) (b : BitVec t.bits) : Int := if t.signed then b.toInt else b.toNat

/-- Conversion to a type (C11 6.3.1.3; to a signed type as the compilers do it, modulo the width). -/
def Ty.conv (t : Ty) (v : Int) : Int := t.read (BitVec.ofInt t.bits v)

/-- Integer promotion, C11 6.3.1.1. -/
def Ty.promote (t : Ty) : Ty := if t.bits < 32 then ⟨true, 32⟩ else t

/-- Usual arithmetic conversions of two promoted types, C11 6.3.1.8. -/
def Ty.common (a b : Ty) : Ty := if a.bits < b.bits then b else if b.bits < a.bits then a else ⟨a.signed && b.signed, a.bits⟩

/-- The result of an addition or subtraction: undefined on signed overflow, modulo the width for unsigned types. -/
def Ty.arith (t : Ty) (v : Int) : Option Int := if t.signed then (if t.Holds v then some v else none) else some (t.conv v)

/-- `x & y` -/
def Ty.band (t : Ty) (x y : Int) : Int := t.read (BitVec.ofInt t.bits x &&& BitVec.ofInt t.bits y)

/-- `~x` -/
def Ty.bnot (t : Ty) (x : Int) : Int := t.read (~~~ BitVec.ofInt t.bits x)

/-- The type of the whole expression: that of the value and that of the alignment, brought together. -/
def result (tv ta : Ty) : Ty := tv.promote.common ta.promote

/-- `bfdev_align_check`, align.h:22-24. -/
def check (tv : Ty) (v : Int) (ta : Ty) (a : Int) : Option Bool :=
  let c := result tv ta
  (ta.promote.arith (a - 1)).map fun m => c.band (c.conv v) (c.conv m) == 0

/-- `bfdev_align_low`, align.h:40-42. -/
def low (tv : Ty) (v : Int) (ta : Ty) (a : Int) : Option Int :=
  let c := result tv ta
  (ta.promote.arith (a - 1)).map fun m => c.band (c.conv v) (c.conv (ta.promote.bnot m))

/-- `bfdev_align_high`, align.h:49-52. -/
def high (tv : Ty) (v : Int) (ta : Ty) (a : Int) : Option Int :=
  let c := result tv ta
  (ta.promote.arith (a - 1)).bind fun m => (c.arith (c.conv v + c.conv m)).map fun s => c.band s (c.conv (ta.promote.bnot m))

/-- The type of an address converted to a number, `uintptr_t`. -/
def uintptr : Ty := ⟨false, 64⟩

/-- `bfdev_align_ptr_check`, align.h:31-33. -/
def ptrCheck (p : Int) (ta : Ty) (a : Int) : Option Bool := check uintptr p ta a
/-- `bfdev_align_ptr_low`, align.h:59-61; the conversion back to a pointer keeps all bits. -/
def ptrLow (p : Int) (ta : Ty) (a : Int) : Option Int := low uintptr p ta a
/-- `bfdev_align_ptr_high`, align.h:68-70. -/
def ptrHigh (p : Int) (ta : Ty) (a : Int) : Option Int := high uintptr p ta a
/-- `bfdev_align_low_adj`, align.h:72-74: the new value of the variable. -/
def lowAdj (tv : Ty) (v : Int) (ta : Ty) (a : Int) : Option Int := (low tv v ta a).map tv.conv
/-- `bfdev_align_high_adj`, align.h:76-78. -/
def highAdj (tv : Ty) (v : Int) (ta : Ty) (a : Int) : Option Int := (high tv v ta a).map tv.conv

end Bfdev.Align

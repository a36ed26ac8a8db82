/-!
Model of the rounding macros of `include/bfdev/math.h`, of `include/bfdev/minmax.h` and of `include/bfdev/uplower.h`. Unsigned types are `BitVec w`; the signed case
of the closest quotient is modelled on `int` and `long` (`w` bits) by integers with overflow as `none`. The operands have the types written in the macros after the
usual conversions; types narrower than `int` are not modelled.
-/
namespace Bfdev.Rounding

/-- `bfdev_round_mask`, math.h:19-21: `x` has `w` bits, `y` has `v` bits. -/
def roundMask {v : Nat} (w : Nat) (y : BitVec v) : BitVec w := (y - 1).setWidth w

/-- `bfdev_round_up`, math.h:28-30. -/
def roundUp {w v : Nat} (x : BitVec w) (y : BitVec v) : BitVec w := ((x - 1) ||| roundMask w y) + 1

/-- `bfdev_round_down`, math.h:37-39. -/
def roundDown {w v : Nat} (x : BitVec w) (y : BitVec v) : BitVec w := x &&& ~~~ roundMask w y

/-- `BFDEV_DIV_ROUND_UP`, math.h:46-48, both operands of one unsigned type; `none` is a division by zero. -/
def divRoundUp {w : Nat} (n d : BitVec w) : Option (BitVec w) := if d = 0 then none else some ((n + d - 1) / d)

/-- `BFDEV_DIV_ROUND_CLOSEST`, math.h:56-65, both operands of one unsigned type. -/
def divClosestU {w : Nat} (x d : BitVec w) : Option (BitVec w) := if d = 0 then none else some ((x + d / 2) / d)

/-- A value of a signed type of `w` bits, or undefined behaviour. -/
def signed (w : Nat) (v : Int) : Option Int := if -2 ^ (w - 1) ≤ v ∧ v < 2 ^ (w - 1) then some v else none

/-- The division of C: rounds towards zero; undefined for zero and for a quotient out of range. -/
def cdiv (w : Nat) (a b : Int) : Option Int := if b = 0 then none else signed w (a.tdiv b)

/-- `BFDEV_DIV_ROUND_CLOSEST`, math.h:56-65, both operands of one signed type of `w` bits. -/
def divClosest (w : Nat) (x d : Int) : Option Int := do
  let h ← cdiv w d 2
  if decide (x > 0) = decide (d > 0) then do
    let s ← signed w (x + h)
    cdiv w s d
  else do
    let s ← signed w (x - h)
    cdiv w s d

/-- `bfdev_min`, minmax.h:17-21; `lt` is the `<` of the type, no conversion between the operands. -/
def min {α : Type} (lt : α → α → Bool) (a b : α) : α := if lt a b then a else b
/-- `bfdev_max`, minmax.h:28-32. -/
def max {α : Type} (lt : α → α → Bool) (a b : α) : α := if lt b a then a else b
/-- `bfdev_clamp`, minmax.h:40-42; `bfdev_clamp_adj`, minmax.h:69-71, stores it in the first operand. -/
def clamp {α : Type} (lt : α → α → Bool) (val lo hi : α) : α := Rounding.min lt (Rounding.max lt val lo) hi
/-- `bfdev_min_adj`, minmax.h:49-51: the new value of the operand. -/
def minAdj {α : Type} (lt : α → α → Bool) (val lo : α) : α := Rounding.min lt val lo
/-- `bfdev_max_adj`, minmax.h:58-60. -/
def maxAdj {α : Type} (lt : α → α → Bool) (val hi : α) : α := Rounding.max lt val hi

/-- `bfdev_upper_16_bits`, uplower.h:18-20. -/
def upper16 {w : Nat} (v : BitVec w) : BitVec 16 := (v >>> 16).setWidth 16
/-- `bfdev_lower_16_bits`, uplower.h:26-28. -/
def lower16 {w : Nat} (v : BitVec w) : BitVec 16 := (v &&& 0xffff).setWidth 16
/-- `bfdev_upper_32_bits`, uplower.h:34-36. -/
def upper32 {w : Nat} (v : BitVec w) : BitVec 32 := ((v >>> 16) >>> 16).setWidth 32
/-- `bfdev_lower_32_bits`, uplower.h:42-44. -/
def lower32 {w : Nat} (v : BitVec w) : BitVec 32 := (v &&& 0xffffffff).setWidth 32

end Bfdev.Rounding

/-!
Points of time, `include/bfdev/time.h`. A `bfdev_time_t` is an `int64_t` (types.h:53); it is an integer here, and the operations that leave its range are
undefined, as signed overflow is in C.
-/
namespace Bfdev.Time

/-- The values of a `bfdev_time_t`, types.h:53. -/
def InRange (a : Int) : Prop := -2 ^ 63 ≤ a ∧ a < 2 ^ 63

instance (a : Int) : Decidable (InRange a) := inferInstanceAs (Decidable (_ ∧ _))

/-- `bfdev_time_add`, time.h:16; `none` is signed overflow. -/
def add (time delta : Int) : Option Int := if InRange (time + delta) then some (time + delta) else none

/-- `bfdev_time_sub`, time.h:17. -/
def sub (time delta : Int) : Option Int := if InRange (time - delta) then some (time - delta) else none

/-- `bfdev_cmp`, macro.h:31-33, with `BFDEV_BT` and `BFDEV_LT`, types.h:56-57. -/
def cmp (cond : Bool) : Int := if cond then 1 else -1

/-- `bfdev_time_compare`, time.h:24-31. -/
def compare (va vb : Int) : Int := if va = vb then 0 else cmp (va > vb)

/-- `bfdev_time_after`, time.h:38-42. -/
def after (va vb : Int) : Bool := compare va vb > 0

/-- `bfdev_time_before`, time.h:49-53. -/
def before (va vb : Int) : Bool := compare va vb < 0

/-- `bfdev_time_after_equal`, time.h:60-64. -/
def afterEqual (va vb : Int) : Bool := compare va vb ≥ 0

/-- `bfdev_time_before_equal`, time.h:71-75. -/
def beforeEqual (va vb : Int) : Bool := compare va vb ≤ 0

end Bfdev.Time

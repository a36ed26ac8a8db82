import Verif.Common.Mem
/-!
Model of `include/bfdev/circle.h`. The arguments are `unsigned long`; arithmetic wraps at `2^64`.
-/
namespace Bfdev.Circle

/-- `BFDEV_CIRCLE_CNT`, circle.h:32-33. -/
def cnt (head tail size : Nat) : Nat := wsub head tail &&& wsub size 1

/-- `BFDEV_CIRCLE_SPACE`, circle.h:36-37. -/
def space (head tail size : Nat) : Nat := wsub tail (w64 (head + 1)) &&& wsub size 1

/-- `BFDEV_CIRCLE_CNT_END`, circle.h:40-45. -/
def cntEnd (head tail size : Nat) : Nat :=
  let e := wsub size tail
  let l := w64 (head + e) &&& wsub size 1
  if l < e then l else e

/-- `BFDEV_CIRCLE_SPACE_END`, circle.h:48-53. The macro computes `__end` but then uses the name `end`, which it does not declare: it compiles only where
the caller has a variable of that name, and then uses this variable (`callerEnd`). -/
def spaceEnd (callerEnd : Nat) (head tail size : Nat) : Nat :=
  let e := wsub (wsub size 1) head
  let l := w64 (e + tail) &&& wsub size 1
  if l ≤ callerEnd then l else w64 (callerEnd + 1)

end Bfdev.Circle

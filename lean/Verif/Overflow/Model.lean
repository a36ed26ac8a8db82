/-!
Model of `include/bfdev/overflow.h`. A C integer type is a width and a signedness. The compiler's `__builtin_*_overflow` are modelled by their
documentation: the exact result is reduced to the type, and the flag says whether this changed it (trusted base).
-/
namespace Bfdev.Overflow

/-- `int8_t .. uint64_t`. -/
structure Ty where
  signed : Bool
  width : Nat

/-- The number a bit pattern stands for. -/
def Ty.val (t : Ty) (v : BitVec t.width) : Int := if t.signed then v.toInt else v.toNat

/-- Conversion to the type. -/
def Ty.cast (t : Ty) (n : Int) : BitVec t.width := BitVec.ofInt t.width n

/-- `__builtin_add_overflow` and its relatives: the stored result and the overflow flag. -/
def builtin (t : Ty) (exact : Int) : BitVec t.width × Bool := (t.cast exact, t.val (t.cast exact) != exact)

/-- `bfdev_overflow_check_add`, overflow.h:23-31. -/
def checkAdd (t : Ty) (a b : BitVec t.width) : BitVec t.width × Bool := builtin t (t.val a + t.val b)
/-- `bfdev_overflow_check_sub`, overflow.h:41-49. -/
def checkSub (t : Ty) (a b : BitVec t.width) : BitVec t.width × Bool := builtin t (t.val a - t.val b)
/-- `bfdev_overflow_check_mul`, overflow.h:59-67. -/
def checkMul (t : Ty) (a b : BitVec t.width) : BitVec t.width × Bool := builtin t (t.val a * t.val b)

/-- `(type)~0ULL`. -/
def sat (t : Ty) : BitVec t.width := BitVec.allOnes t.width

/-- `bfdev_overflow_add_type`, overflow.h:69-75, and `bfdev_overflow_add_s8 .. u64`: the operands are first converted to the type. -/
def addType (t : Ty) (a b : Int) : BitVec t.width := let r := checkAdd t (t.cast a) (t.cast b); if r.2 then sat t else r.1
/-- `bfdev_overflow_sub_type`, overflow.h:77-83. -/
def subType (t : Ty) (a b : Int) : BitVec t.width := let r := checkSub t (t.cast a) (t.cast b); if r.2 then sat t else r.1
/-- `bfdev_overflow_mul_type`, overflow.h:85-91. -/
def mulType (t : Ty) (a b : Int) : BitVec t.width := let r := checkMul t (t.cast a) (t.cast b); if r.2 then sat t else r.1

end Bfdev.Overflow

/-!
Model of `include/bfdev/errptr.h`. A pointer is its 64-bit address, an `int` has 32 bits. `BFDEV_ERRNO_MAX` is 4096 (errno.h:123), `BFDEV_EPERM` 1 (14).
-/
namespace Bfdev.Errptr

abbrev Ptr := BitVec 64
abbrev CInt := BitVec 32

/-- `BFDEV_ERR_PTR`, errptr.h:20-24: the `int` is widened with its sign. -/
def errPtr (error : CInt) : Ptr := error.signExtend 64
/-- `BFDEV_PTR_ERR`, errptr.h:30-34: the low 32 bits. -/
def ptrErr (p : Ptr) : CInt := p.setWidth 32
/-- `BFDEV_PTR_INVAL`, errptr.h:40-44. -/
def ptrInval (p : Ptr) : CInt := if ptrErr p ≠ 0 then ptrErr p else BitVec.ofInt 32 (-1)
/-- `BFDEV_IS_ERR`, errptr.h:50-54. -/
def isErr (p : Ptr) : Bool := decide ((BitVec.ofInt 64 (-4096)).toNat ≤ p.toNat)
/-- `BFDEV_IS_INVAL`, errptr.h:60-64. -/
def isInval (p : Ptr) : Bool := p == 0 || isErr p
/-- `BFDEV_PTR_ERR_ZERO`, errptr.h:70-76. -/
def ptrErrZero (p : Ptr) : CInt := if isErr p then ptrErr p else 0
/-- `BFDEV_PTR_INVAL_ZERO`, errptr.h:82-88. -/
def ptrInvalZero (p : Ptr) : CInt := if isInval p then ptrInval p else 0

end Bfdev.Errptr

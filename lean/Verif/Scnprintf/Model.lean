/-!
Model of `src/scnprintf.c`. The C library's `vsnprintf` is modelled by the C standard (trusted base): called with `size > 0` for a text of `m`
characters it stores the first `min m (size - 1)` of them and a terminator, and returns `m`; on an encoding error it returns a negative number.
-/
namespace Bfdev.Scnprintf

/-- What `vsnprintf(buf, size, ...)` stores before the terminator. -/
def stored (size : Nat) (text : List UInt8) : List UInt8 := text.take (size - 1)

/-- `bfdev_vscnprintf`, scnprintf.c:10-23, given the number `len` that `vsnprintf` returned. In `len < size` the `int` is converted to `size_t`;
the returned `size - 1` is converted to `int`. -/
def vscnprintf (size : BitVec 64) (len : BitVec 32) : BitVec 32 :=
  if size = 0 then 0
  else if (len.signExtend 64).toNat < size.toNat then len
  else (size - 1).setWidth 32

end Bfdev.Scnprintf

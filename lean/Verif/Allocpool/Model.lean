import Verif.Scan.Model
/-!
Model of `src/allocpool.c` and `include/bfdev/allocpool.h`. Addresses and sizes are 64-bit words.
-/
namespace Bfdev.Allocpool
open Scan (Word)

/-- `struct bfdev_allocpool`, allocpool.h:17-22. -/
structure Pool where
  block : Word
  size : Word
  last : Word
  count : Word
deriving DecidableEq

/-- `bfdev_allocpool_init`, allocpool.h:40-44. -/
def init (block size : Word) : Pool := ⟨block, size, 0, 0⟩

/-- `bfdev_allocpool_reset`, allocpool.h:50-55. -/
def reset (p : Pool) : Pool := { p with last := 0, count := 0 }

/-- `bfdev_allocpool_alloc`, allocpool.c:10-30; no address stands for NULL. -/
def alloc (p : Pool) (size align : Word) : Option Word × Pool :=
  if size = 0 then (none, p)
  else
    let align := Scan.alignHigh (if align = 0 then 1 else align) 8
    let retval := Scan.alignHigh (p.block + p.last) align
    let offset := (retval - p.block) + size
    if p.size < offset then (none, p)
    else (some retval, { p with last := offset, count := p.count + 1 })

/-- `bfdev_allocpool_free`, allocpool.c:32-37. -/
def free (p : Pool) : Pool :=
  let p := { p with count := p.count - 1 }
  if p.count = 0 then { p with last := 0 } else p

end Bfdev.Allocpool

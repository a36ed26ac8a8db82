import Verif.Common.Mem
/-
Model of `src/fifo.c` and of the put/get/peek macros of `include/bfdev/fifo.h`.

`unsigned long` values are naturals below `2^64`, every addition, subtraction and multiplication is reduced mod
`2^64` where the C code computes in `unsigned long`.  Every function returns `none` when the C code would read or write
outside the fifo's data block, or read outside the caller's buffer.
-/
namespace Bfdev.Fifo

/-- `struct bfdev_fifo`, include/bfdev/fifo.h:18-25.  `data` is the memory block behind the `data` pointer; the
`alloc` pointer is not modelled. -/
structure Fifo where
  inp   : Nat
  out   : Nat
  mask  : Nat
  esize : Nat
  data  : List Byte
  deriving DecidableEq, Repr

/-- Lines 15-25 of src/fifo.c (`FIFO_GENERIC_COPY`): the byte offset, the byte length, and the length of the
first of the two copies. -/
def copyPlan (f : Fifo) (len offset : Nat) : Nat × Nat × Nat :=
  let size := w64 (f.mask + 1)
  let offset := offset &&& f.mask
  let (offset, size, len) :=
    if f.esize ≠ 1 then (w64 (offset * f.esize), w64 (size * f.esize), w64 (len * f.esize))
    else (offset, size, len)
  (offset, len, min len (wsub size offset))

/-- `fifo_out_copy`, src/fifo.c:30-38: the bytes stored to the caller's buffer. -/
def outCopy (f : Fifo) (len offset : Nat) : Option (List Byte) :=
  let (offset, len, llen) := copyPlan f len offset
  do
    let a ← rd f.data offset llen
    let b ← rd f.data 0 (len - llen)
    return a ++ b

/-- `fifo_in_copy`, src/fifo.c:40-48. -/
def inCopy (f : Fifo) (buff : List Byte) (len offset : Nat) : Option Fifo :=
  let (offset, len, llen) := copyPlan f len offset
  do
    let a ← rd buff 0 llen
    let d ← wr f.data offset a
    let b ← rd buff llen (len - llen)
    let d ← wr d 0 b
    return { f with data := d }

/-- Lines 56-65 (and 82-90) of src/fifo.c: start offset and byte mask of the length bytes, from the read index. -/
def recordPlan (f : Fifo) : Nat × Nat :=
  if f.esize ≠ 1 then (w64 (f.out * f.esize), w64 (w64 (f.mask * f.esize) + wsub f.esize 1))
  else (f.out, f.mask)

/-- Lines 67-71 of src/fifo.c: the loop of `fifo_record_peek`. -/
def recordPeekLoop (f : Fifo) (mask : Nat) : Nat → Nat → Nat → Option Nat
  | 0, _, length => some length
  | recsize + 1, offset, length => do
    let b ← f.data[offset &&& mask]?
    recordPeekLoop f mask recsize (w64 (offset + f.esize)) (w64 (length * 256) ||| b.toNat)

/-- `fifo_record_peek`, src/fifo.c:50-74. -/
def recordPeek (f : Fifo) (recsize : Nat) : Option Nat :=
  let (offset, mask) := recordPlan f
  recordPeekLoop f mask recsize offset 0

/-- Lines 92-96 of src/fifo.c: the loop of `fifo_record_poke`. -/
def recordPokeLoop (esize mask : Nat) : Nat → Nat → Nat → List Byte → Option (List Byte)
  | 0, _, _, data => some data
  | recsize + 1, offset, len, data => do
    let data ← wr data (offset &&& mask) [BitVec.ofNat 8 len]
    recordPokeLoop esize mask recsize (w64 (offset + esize)) (len / 256) data

/-- `fifo_record_poke`, src/fifo.c:76-97. -/
def recordPoke (f : Fifo) (len recsize : Nat) : Option Fifo :=
  let (offset, mask) := recordPlan f
  do
    let d ← recordPokeLoop f.esize mask recsize offset len f.data
    return { f with data := d }

/-- `fifo_empty`, src/fifo.c:99-103; `bfdev_fifo_check_empty`, include/bfdev/fifo.h:252-255. -/
def empty (f : Fifo) : Bool := f.inp == f.out

/-- `fifo_valid`, src/fifo.c:105-109; `bfdev_fifo_len`, include/bfdev/fifo.h:243-246. -/
def valid (f : Fifo) : Nat := wsub f.inp f.out

/-- `fifo_unused`, src/fifo.c:111-115. -/
def unused (f : Fifo) : Nat := wsub (w64 (f.mask + 1)) (wsub f.inp f.out)

/-- `bfdev_fifo_check_full`, include/bfdev/fifo.h:261-264. -/
def full (f : Fifo) : Bool := decide (f.mask < valid f)

/-- `bfdev_fifo_peek_flat`, src/fifo.c:117-127: the count returned and the bytes stored to the buffer. -/
def peekFlat (f : Fifo) (len : Nat) : Option (Nat × List Byte) :=
  let len := min len (valid f)
  do
    let bs ← outCopy f len f.out
    return (len, bs)

/-- `bfdev_fifo_out_flat`, src/fifo.c:129-138. -/
def outFlat (f : Fifo) (len : Nat) : Option (Fifo × Nat × List Byte) := do
  let (llen, bs) ← peekFlat f len
  return ({ f with out := w64 (f.out + llen) }, llen, bs)

/-- `bfdev_fifo_in_flat`, src/fifo.c:140-151. -/
def inFlat (f : Fifo) (buff : List Byte) (len : Nat) : Option (Fifo × Nat) :=
  let len := min len (unused f)
  do
    let f ← inCopy f buff len f.inp
    return ({ f with inp := w64 (f.inp + len) }, len)

/-- `bfdev_fifo_peek_record`, src/fifo.c:153-167. -/
def peekRecord (f : Fifo) (len record : Nat) : Option (Nat × List Byte) :=
  if empty f then some (0, [])
  else do
    let datalen ← recordPeek f record
    let len := min len datalen
    let bs ← outCopy f len (w64 (f.out + record))
    return (len, bs)

/-- `bfdev_fifo_out_record`, src/fifo.c:169-184. -/
def outRecord (f : Fifo) (len record : Nat) : Option (Fifo × Nat × List Byte) :=
  if empty f then some (f, 0, [])
  else do
    let datalen ← recordPeek f record
    let len := min len datalen
    let bs ← outCopy f len (w64 (f.out + record))
    return ({ f with out := w64 (f.out + w64 (datalen + record)) }, len, bs)

/-- `bfdev_fifo_in_record`, src/fifo.c:186-198. -/
def inRecord (f : Fifo) (buff : List Byte) (len record : Nat) : Option (Fifo × Nat) :=
  if unused f < w64 (len + record) then some (f, 0)
  else do
    let f ← recordPoke f len record
    let f ← inCopy f buff len (w64 (f.inp + record))
    return ({ f with inp := w64 (f.inp + w64 (len + record)) }, len)

/-- `bfdev_fifo_put` on a fifo without records, include/bfdev/fifo.h:358-379 (the `else` branch): one element assignment
at `data[in & mask]`.  The returned flag is the value of the macro. -/
def put (f : Fifo) (value : List Byte) : Option (Fifo × Bool) :=
  if !full f then do
    let d ← wr f.data ((f.inp &&& f.mask) * f.esize) value
    return ({ f with data := d, inp := w64 (f.inp + 1) }, true)
  else some (f, false)

/-- `bfdev_fifo_peek` on a fifo without records, include/bfdev/fifo.h:303-322: the element read, if any. -/
def peek (f : Fifo) : Option (Option (List Byte)) :=
  if !empty f then do
    let v ← rd f.data ((f.out &&& f.mask) * f.esize) f.esize
    return some v
  else some none

/-- `bfdev_fifo_get` on a fifo without records, include/bfdev/fifo.h:330-350. -/
def get (f : Fifo) : Option (Fifo × Option (List Byte)) :=
  if !empty f then do
    let v ← rd f.data ((f.out &&& f.mask) * f.esize) f.esize
    return ({ f with out := w64 (f.out + 1) }, some v)
  else some (f, none)

/-- `bfdev_fifo_reset`, include/bfdev/fifo.h:225-228. -/
def reset (f : Fifo) : Fifo := { f with out := 0, inp := 0 }

/-- `bfdev_fifo_homing`, include/bfdev/fifo.h:234-237. -/
def homing (f : Fifo) : Fifo := { f with out := f.inp }

end Bfdev.Fifo

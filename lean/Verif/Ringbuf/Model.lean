import Verif.Fifo.Model
/-
Model of `src/ringbuf.c` and of the put/get/peek macros of `include/bfdev/ringbuf.h`.

`struct bfdev_ringbuf` has the same members as `struct bfdev_fifo`, and the functions reused below are the same text
with `fifo` replaced by `ringbuf`; each reuse cites the ring buffer's own lines.
-/
namespace Bfdev.Ringbuf

/-- `struct bfdev_ringbuf`, include/bfdev/ringbuf.h:18-25. -/
abbrev Ringbuf := Fifo.Fifo

/-- `ringbuf_in_copy`, src/ringbuf.c:40-48 (with `RINGBUF_GENERIC_COPY`, lines 12-28). -/
def inCopy (f : Ringbuf) (buff : List Byte) (len offset : Nat) : Option Ringbuf := Fifo.inCopy f buff len offset

/-- `ringbuf_record_peek`, src/ringbuf.c:50-74. -/
def recordPeek (f : Ringbuf) (recsize : Nat) : Option Nat := Fifo.recordPeek f recsize

/-- `ringbuf_record_poke`, src/ringbuf.c:76-97. -/
def recordPoke (f : Ringbuf) (len recsize : Nat) : Option Ringbuf := Fifo.recordPoke f len recsize

/-- `ringbuf_empty`, src/ringbuf.c:99-103; `bfdev_ringbuf_check_empty`, include/bfdev/ringbuf.h:252-255. -/
def empty (f : Ringbuf) : Bool := f.inp == f.out

/-- `ringbuf_valid`, src/ringbuf.c:105-109; `bfdev_ringbuf_len`, include/bfdev/ringbuf.h:243-246. -/
def valid (f : Ringbuf) : Nat := wsub f.inp f.out

/-- `ringbuf_overflow`, src/ringbuf.c:111-123. -/
def overflow (f : Ringbuf) : Nat :=
  let size := w64 (f.mask + 1)
  let used := wsub f.inp f.out
  if used > size then used - size else 0

/-- `bfdev_ringbuf_check_full`, include/bfdev/ringbuf.h:261-264. -/
def full (f : Ringbuf) : Bool := decide (valid f > f.mask)

/-- `bfdev_ringbuf_peek_flat`, src/ringbuf.c:125-135. -/
def peekFlat (f : Ringbuf) (len : Nat) : Option (Nat × List Byte) := Fifo.peekFlat f len

/-- `bfdev_ringbuf_out_flat`, src/ringbuf.c:137-146. -/
def outFlat (f : Ringbuf) (len : Nat) : Option (Ringbuf × Nat × List Byte) := Fifo.outFlat f len

/-- `bfdev_ringbuf_in_flat`, src/ringbuf.c:148-164. -/
def inFlat (f : Ringbuf) (buff : List Byte) (len : Nat) : Option (Ringbuf × Nat) :=
  let size := w64 (f.mask + 1)
  let len := min len size
  do
    let f ← inCopy f buff len f.inp
    let f := { f with inp := w64 (f.inp + len) }
    let ov := overflow f
    return (if ov ≠ 0 then { f with out := w64 (f.out + ov) } else f, len)

/-- `bfdev_ringbuf_peek_record`, src/ringbuf.c:166-180. -/
def peekRecord (f : Ringbuf) (len record : Nat) : Option (Nat × List Byte) := Fifo.peekRecord f len record

/-- `bfdev_ringbuf_out_record`, src/ringbuf.c:182-197. -/
def outRecord (f : Ringbuf) (len record : Nat) : Option (Ringbuf × Nat × List Byte) := Fifo.outRecord f len record

/-- Lines 213-217 of src/ringbuf.c: discard old records until the overflow is gone.  `fuel` bounds the number of
iterations (each discards at least `record` elements); running out of fuel is reported as `none`. -/
def discardLoop (record : Nat) : Nat → Ringbuf → Nat → Option Ringbuf
  | 0, f, ov => if ov = 0 then some f else none
  | fuel + 1, f, ov =>
    if ov = 0 then some f
    else do
      let peeked ← recordPeek f record
      let datalen := w64 (record + peeked)
      discardLoop record fuel { f with out := w64 (f.out + datalen) } (ov - min datalen ov)

/-- `bfdev_ringbuf_in_record`, src/ringbuf.c:199-223. -/
def inRecord (f : Ringbuf) (buff : List Byte) (len record : Nat) : Option (Ringbuf × Nat) :=
  let size := w64 (f.mask + 1)
  let len := min len size
  let offset := w64 (f.inp + record)
  let f := { f with inp := w64 (offset + len) }
  let ov := overflow f
  do
    let f ← discardLoop record ov f ov
    let f ← recordPoke f len record
    let f ← inCopy f buff len offset
    return (f, len)

/-- `bfdev_ringbuf_put` on a ring buffer without records, include/bfdev/ringbuf.h:358-379.  The flag returned says
whether the oldest element was overwritten. -/
def put (f : Ringbuf) (value : List Byte) : Option (Ringbuf × Bool) :=
  let retval := full f
  let f := if retval then { f with out := w64 (f.out + 1) } else f
  do
    let d ← wr f.data ((f.inp &&& f.mask) * f.esize) value
    return ({ f with data := d, inp := w64 (f.inp + 1) }, retval)

/-- `bfdev_ringbuf_peek` on a ring buffer without records, include/bfdev/ringbuf.h:303-322. -/
def peek (f : Ringbuf) : Option (Option (List Byte)) := Fifo.peek f

/-- `bfdev_ringbuf_get` on a ring buffer without records, include/bfdev/ringbuf.h:330-350. -/
def get (f : Ringbuf) : Option (Ringbuf × Option (List Byte)) := Fifo.get f

/-- `bfdev_ringbuf_reset`, include/bfdev/ringbuf.h:225-228. -/
def reset (f : Ringbuf) : Ringbuf := { f with out := 0, inp := 0 }

/-- `bfdev_ringbuf_homing`, include/bfdev/ringbuf.h:234-237. -/
def homing (f : Ringbuf) : Ringbuf := { f with out := f.inp }

end Bfdev.Ringbuf

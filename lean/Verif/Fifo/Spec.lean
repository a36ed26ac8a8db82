import Verif.Common.Mem
/-! Specification: a bounded first-in first-out queue of elements, each element being a block of bytes. -/
namespace Bfdev.Fifo

/-- The queue: `items` is oldest first. -/
structure Queue where
  cap   : Nat
  items : List (List Byte)
  deriving DecidableEq, Repr

/-- The calls of the interface.  `buffIn elems len` passes a buffer holding the elements `elems` one after the other. -/
inductive Op where
  | put (v : List Byte)
  | get
  | peek
  | buffIn (elems : List (List Byte)) (len : Nat)
  | buffOut (len : Nat)
  | buffPeek (len : Nat)
  | getLen
  | checkEmpty
  | checkFull
  | reset
  | homing

/-- What a caller observes: flags, counts, single elements (if any), and the bytes stored to a buffer. -/
inductive Res where
  | flag (b : Bool)
  | count (n : Nat)
  | elem (v : Option (List Byte))
  | data (n : Nat) (bytes : List Byte)
  | done
  deriving DecidableEq, Repr

/-- One call on the abstract queue. -/
def Queue.step (q : Queue) : Op → Queue × Res
  | .put v => if q.items.length < q.cap then ({ q with items := q.items ++ [v] }, .flag true) else (q, .flag false)
  | .get => match q.items with
    | [] => (q, .elem none)
    | v :: rest => ({ q with items := rest }, .elem (some v))
  | .peek => (q, .elem q.items.head?)
  | .buffIn elems len =>
    let n := min len (q.cap - q.items.length)
    ({ q with items := q.items ++ elems.take n }, .count n)
  | .buffOut len =>
    let n := min len q.items.length
    ({ q with items := q.items.drop n }, .data n (q.items.take n).flatten)
  | .buffPeek len =>
    let n := min len q.items.length
    (q, .data n (q.items.take n).flatten)
  | .getLen => (q, .count q.items.length)
  | .checkEmpty => (q, .flag q.items.isEmpty)
  | .checkFull => (q, .flag (q.items.length == q.cap))
  | .reset => ({ q with items := [] }, .done)
  | .homing => ({ q with items := [] }, .done)

/-- The results of a history of calls on the abstract queue. -/
def Queue.run (q : Queue) : List Op → List Res
  | [] => []
  | op :: ops => (q.step op).2 :: (q.step op).1.run ops

/-- What the caller has to respect: elements have the element size, and a buffer holds as many elements as announced
(with a count that does not exceed `unsigned long`). -/
def Op.Ok (esize : Nat) : Op → Prop
  | .put v => v.length = esize
  | .buffIn elems len => (∀ e ∈ elems, e.length = esize) ∧ len ≤ elems.length
  | _ => True

end Bfdev.Fifo

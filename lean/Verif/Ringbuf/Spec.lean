import Verif.Fifo.Spec
/-! Specification: the newest `cap` elements of a stream, read oldest first. -/
namespace Bfdev.Ringbuf
open Bfdev.Fifo (Op Res Queue)

/-- The last `n` elements of a list. -/
def lastN {α} (n : Nat) (l : List α) : List α := l.drop (l.length - n)

/-- The elements a call hands to the ring buffer (a bulk write accepts at most `cap` elements). -/
def written (cap : Nat) : Op → List (List Byte)
  | .put v => [v]
  | .buffIn elems len => elems.take (min len cap)
  | _ => []

/-- One call on the abstract ring buffer: what is written goes to the end, and only the newest `cap` elements stay. -/
def specStep (q : Queue) : Op → Queue × Res
  | .put v => ({ q with items := lastN q.cap (q.items ++ [v]) }, .flag (q.items.length == q.cap))
  | .buffIn elems len =>
    ({ q with items := lastN q.cap (q.items ++ elems.take (min len q.cap)) }, .count (min len q.cap))
  | .get => match q.items with
    | [] => (q, .elem none)
    | v :: rest => ({ q with items := rest }, .elem (some v))
  | .peek => (q, .elem q.items.head?)
  | .buffOut len =>
    let n := min len q.items.length
    ({ q with items := q.items.drop n }, .data n (q.items.take n).flatten)
  | .buffPeek len =>
    let n := min len q.items.length
    (q, .data n (q.items.take n).flatten)
  | .getLen => (q, .count q.items.length)
  | .checkEmpty => (q, .flag q.items.isEmpty)
  | .checkFull => (q, .flag (q.items.length == q.cap))
  | .reset => ({ q with items := [] }, .done)
  | .homing => ({ q with items := [] }, .done)

def specRun (q : Queue) : List Op → List Res
  | [] => []
  | op :: ops => (specStep q op).2 :: specRun (specStep q op).1 ops

/-- The abstract ring buffer after a history. -/
def specFinal (q : Queue) : List Op → Queue
  | [] => q
  | op :: ops => specFinal (specStep q op).1 ops

end Bfdev.Ringbuf

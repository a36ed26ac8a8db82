import Verif.Spsc.Model
/-!
Specification: a bounded queue whose calls have two moments. When a call begins, the number of elements it will move is decided by the fill level of that moment;
when it returns, the elements are moved, all at once. In between nobody sees anything of it.
-/
namespace Bfdev.Spsc

structure Queue where
  cap : Nat
  items : List (List Byte)
  /-- what the call of the writing side will append -/
  adding : Option (List (List Byte))
  /-- how many elements the call of the reading side will return -/
  taking : Option Nat
  deriving DecidableEq, Repr

/-- One event; `none` when a queue would have answered differently. -/
def Queue.step (q : Queue) : Ev → Option Queue
  | .putFull _ => if q.adding = none ∧ q.items.length = q.cap then some q else none
  | .inBegin elems len => if q.adding = none then some { q with adding := some (elems.take (min len (q.cap - q.items.length))) } else none
  | .inEnd ret =>
    match q.adding with
    | none => none
    | some els => if ret = els.length ∧ q.items.length + ret ≤ q.cap then some { q with items := q.items ++ els, adding := none } else none
  | .getEmpty => if q.taking = none ∧ q.items = [] then some q else none
  | .outBegin len => if q.taking = none then some { q with taking := some (min len q.items.length) } else none
  | .outEnd keep ret before after =>
    match q.taking with
    | none => none
    | some n =>
      let bytes := (q.items.take n).flatten
      if ret = n ∧ n ≤ q.items.length ∧ after = bytes ++ before.drop bytes.length then
        some { q with items := if keep then q.items else q.items.drop n, taking := none }
      else none
  | .homeBegin => if q.taking = none then some { q with taking := some q.items.length } else none
  | .homeEnd =>
    match q.taking with
    | none => none
    | some n => some { q with items := q.items.drop n, taking := none }
  | .len n => if n = q.items.length then some q else none

/-- The queue explains what the callers saw. -/
def Queue.run (q : Queue) : List Ev → Option Queue
  | [] => some q
  | e :: l => (q.step e).bind fun q' => q'.run l

def Queue.new (cap : Nat) : Queue := ⟨cap, [], none, none⟩

/-- What the callers have to respect: elements have the element size, buffers are as large as announced. -/
def Act.Ok (esize : Nat) : Act → Prop
  | .put v => v.length = esize
  | .inn elems len => (∀ e ∈ elems, e.length = esize) ∧ len ≤ elems.length
  | .get _ buf => buf.length = esize
  | .out _ buf len => len * esize ≤ buf.length
  | _ => True

/-- The elements that were accepted, in order: of every call that returned, the first `ret` elements. -/
def sent (cur : List (List Byte)) : List Ev → List (List Byte)
  | [] => []
  | .inBegin elems _ :: l => sent elems l
  | .inEnd ret :: l => cur.take ret ++ sent [] l
  | _ :: l => sent cur l

/-- The bytes that were handed out, in order. -/
def received (esize : Nat) : List Ev → List Byte
  | [] => []
  | .outEnd false ret _ after :: l => after.take (ret * esize) ++ received esize l
  | _ :: l => received esize l

/-- The steps of the writing side. -/
def Act.writes : Act → Bool
  | .put _ | .inn _ _ | .store _ | .inEnd | .lenP => true
  | _ => false

end Bfdev.Spsc

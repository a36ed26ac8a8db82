import Verif.Dlist.Model
/-!
Model of `src/respool.c` and `include/bfdev/respool.h` on the circular lists of `Verif/Dlist/Model.lean`. A resource node is named by
the address of its embedded list node (the address offset of `container_of` is left out). The release callback is recorded in `log`;
it is assumed not to change the links of the pool, which is what a callback gets to do on a node that was already unlinked.
-/
namespace Bfdev.Respool
open Dlist (Addr)

/-- The links of all nodes and the release callbacks made so far, oldest first. -/
structure State where
  heap : Dlist.Heap
  log : List Addr

/-- `bfdev_respool_init`, respool.h:46-50. -/
def init (s : State) (pool : Addr) : State := { s with heap := Dlist.headInit s.heap pool }

/-- `bfdev_respool_check_empty`, respool.h:52-56. -/
def checkEmpty (s : State) (pool : Addr) : Bool := Dlist.checkEmpty s.heap pool

/-- `bfdev_respool_insert`, respool.h:58-63. -/
def insert (s : State) (pool node : Addr) : State := { s with heap := Dlist.add s.heap pool node }

/-- `bfdev_respool_remove`, respool.h:65-70. -/
def remove (s : State) (node : Addr) : State := { s with heap := Dlist.del s.heap node }

/-- The callback `node->release(node, pdata)`, respool.c:29, 54 and 66. -/
def callRelease (s : State) (node : Addr) : State := { s with log := s.log ++ [node] }

/-- The loop of `bfdev_respool_find`, respool.c:16-21; `miss` is the callback, which answers zero on a match. The outer option is
`none` when the fuel runs out, the inner one is the pointer returned. -/
def findFrom (h : Dlist.Heap) (pool : Addr) (miss : Addr → Int) : Nat → Addr → Option (Option Addr)
  | 0, _ => none
  | fuel + 1, walk =>
    if walk = pool then some none
    else if miss walk = 0 then some (some walk)
    else findFrom h pool miss fuel (h.next walk)

/-- `bfdev_respool_find`, respool.c:10-22. -/
def find (s : State) (pool : Addr) (miss : Addr → Int) (fuel : Nat) : Option (Option Addr) :=
  findFrom s.heap pool miss fuel (s.heap.next pool)

/-- `bfdev_respool_release`, respool.c:24-30. -/
def release (s : State) (node : Addr) : State := callRelease { s with heap := Dlist.del s.heap node } node

/-- `bfdev_respool_find_remove`, respool.c:32-43. -/
def findRemove (s : State) (pool : Addr) (miss : Addr → Int) (fuel : Nat) : Option (Option Addr × State) :=
  match find s pool miss fuel with
  | none => none
  | some none => some (none, s)
  | some (some m) => some (some m, { s with heap := Dlist.del s.heap m })

/-- `bfdev_respool_find_release`, respool.c:45-58. -/
def findRelease (s : State) (pool : Addr) (miss : Addr → Int) (fuel : Nat) : Option (Option Addr × State) :=
  match find s pool miss fuel with
  | none => none
  | some none => some (none, s)
  | some (some m) => some (some m, callRelease { s with heap := Dlist.del s.heap m } m)

/-- The loop of `bfdev_respool_release_all`, respool.c:65-66: the successor is read before the body runs. -/
def releaseFrom (pool : Addr) : Nat → State → Addr → Addr → Option State
  | 0, _, _, _ => none
  | fuel + 1, s, node, tmp =>
    if node = pool then some s
    else
      let s := callRelease s node
      releaseFrom pool fuel s tmp (s.heap.next tmp)

/-- `bfdev_respool_release_all`, respool.c:60-67. -/
def releaseAll (s : State) (pool : Addr) (fuel : Nat) : Option State :=
  let node := s.heap.next pool
  releaseFrom pool fuel s node (s.heap.next node)

end Bfdev.Respool

import Verif.Dlist.Model
/-!
Model of `include/bfdev/hlist.h`. A list head and a node both start with a forward pointer (`node` / `next`, hlist.h:20-27), so the
address of that pointer is the address of the structure: `pprev` holds the address of the structure whose forward pointer refers to
the node. Memory is the pair of fields of the circular list model: `next a` is the forward pointer at `a`, `prev a` the `pprev` field.
Address 0 is NULL; writing through it is the failing outcome `none`. The debug checks
(BFDEV_DEBUG_HLIST), which the default configuration turns on, are left out here and added in `Verif/Hlist/Debug.lean` (C91).
-/
namespace Bfdev.Hlist
open Bfdev.Dlist (Addr Heap)

/-- `*p = v` for a pointer to a forward pointer. -/
def put (s : Heap) (p v : Addr) : Option Heap := if p = 0 then none else some (s.setNext p v)

/-- `bfdev_hlist_head_init`, hlist.h:57-61. -/
def headInit (s : Heap) (head : Addr) : Heap := s.setNext head 0

/-- `bfdev_hlist_node_init`, hlist.h:67-72. -/
def nodeInit (s : Heap) (node : Addr) : Heap := (s.setPrev node 0).setNext node 0

/-- `bfdev_hlist_head_add`, hlist.h:79-93. -/
def headAdd (s : Heap) (head newn : Addr) : Heap :=
  let s := s.setNext newn (s.next head)
  let s := s.setPrev newn head
  let s := if s.next head ≠ 0 then s.setPrev (s.next head) newn else s
  s.setNext head newn

/-- `bfdev_hlist_next_add`, hlist.h:100-114. -/
def nextAdd (s : Heap) (node newn : Addr) : Heap :=
  let s := s.setPrev newn node
  let s := s.setNext newn (s.next node)
  let s := if s.next newn ≠ 0 then s.setPrev (s.next newn) node else s
  s.setNext node newn

/-- `bfdev_hlist_prev_add`, hlist.h:121-133. -/
def prevAdd (s : Heap) (node newn : Addr) : Option Heap :=
  let s := s.setPrev newn (s.prev node)
  let s := s.setNext newn node
  let s := s.setPrev node node
  put s (s.prev node) newn

/-- `bfdev_hlist_deluf`, hlist.h:139-150. -/
def deluf (s : Heap) (node : Addr) : Option Heap :=
  let pprev := s.prev node
  let next := s.next node
  let s := if next ≠ 0 then s.setPrev next pprev else s
  put s pprev next

/-- `bfdev_hlist_del`, hlist.h:156-167, with the poison values of poison.h:22-23. -/
def del (s : Heap) (node : Addr) : Option Heap := do
  let s ← deluf s node
  return (s.setNext node 0x120).setPrev node 0x130

/-- `bfdev_hlist_check_empty`, hlist.h:173-177. -/
def checkEmpty (s : Heap) (head : Addr) : Bool := s.next head == 0

/-- `bfdev_hlist_check_first`, hlist.h:184-189. -/
def checkFirst (s : Heap) (head node : Addr) : Bool := s.next head == node

/-- `bfdev_hlist_check_end`, hlist.h:195-199. -/
def checkEnd (s : Heap) (node : Addr) : Bool := s.next node == 0

/-- `bfdev_hlist_check_another`, hlist.h:206-211. -/
def checkAnother (s : Heap) (head node : Addr) : Bool := s.next head == node && s.next node == 0

/-- `bfdev_hlist_check_unhashed`, hlist.h:217-221. -/
def checkUnhashed (s : Heap) (node : Addr) : Bool := s.prev node == 0

/-- `bfdev_hlist_head_replace`, hlist.h:228-235. -/
def headReplace (s : Heap) (oldn newn : Addr) : Heap :=
  let s := s.setNext newn (s.next oldn)
  let s := s.setNext oldn 0
  if s.next newn ≠ 0 then s.setPrev (s.next newn) newn else s

/-- `bfdev_hlist_replace`, hlist.h:242-250. -/
def replace (s : Heap) (oldn newn : Addr) : Option Heap :=
  let s := s.setNext newn (s.next oldn)
  let s := s.setPrev newn (s.prev oldn)
  let s := if s.next newn ≠ 0 then s.setPrev (s.next newn) newn else s
  put s (s.prev newn) newn

/-- `bfdev_hlist_del_init`, hlist.h:256-261. -/
def delInit (s : Heap) (node : Addr) : Option Heap := do
  let s ← deluf s node
  return nodeInit s node

/-- `bfdev_hlist_for_each_from`, hlist.h:301-302, collecting the cursors; `none` when the fuel runs out. -/
def walkFrom (s : Heap) : Nat → Addr → Option (List Addr)
  | 0, _ => none
  | fuel + 1, pos => if pos = 0 then some [] else (walkFrom s fuel (s.next pos)).map (pos :: ·)

/-- `bfdev_hlist_for_each`, hlist.h:294-295. -/
def forEach (s : Heap) (head : Addr) (fuel : Nat) : Option (List Addr) := walkFrom s fuel (s.next head)

end Bfdev.Hlist

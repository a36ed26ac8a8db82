/-!
Model of `include/bfdev/slist.h`. A node is its address, memory is its `next` field; address 0 is NULL and following it is `none`.
Loops carry fuel, running out of it (a loop that does not end) is `none`. The debug checks
(BFDEV_DEBUG_SLIST), which the default configuration turns on, are left out here and added in `Verif/Slist/Debug.lean` (C91).
-/
namespace Bfdev.Slist

abbrev Addr := Nat
abbrev Heap := Addr → Addr

def upd (s : Heap) (a v : Addr) : Heap := fun x => if x = a then v else s x

/-- `bfdev_slist_head_init`, slist.h:45-49. -/
def headInit (s : Heap) (head : Addr) : Heap := upd s head 0

/-- `bfdev_slist_add`, slist.h:56-66. -/
def add (s : Heap) (node newn : Addr) : Heap :=
  let s := upd s newn (s node)
  upd s node newn

/-- `while (walk->next != node) walk = walk->next`, slist.h:84-85 and 147-148. -/
def findPrev (s : Heap) (node : Addr) : Nat → Addr → Option Addr
  | 0, _ => none
  | fuel + 1, walk => if walk = 0 then none else if s walk ≠ node then findPrev s node fuel (s walk) else some walk

/-- `bfdev_slist_del`, slist.h:73-89, with the poison value of poison.h:24. -/
def del (s : Heap) (head node : Addr) (fuel : Nat) : Option Heap := do
  let walk ← findPrev s node fuel head
  let s := upd s walk (s node)
  return upd s node 0x140

/-- `bfdev_slist_replace`, slist.h:141-152. -/
def replace (s : Heap) (head oldn newn : Addr) (fuel : Nat) : Option Heap := do
  let walk ← findPrev s oldn fuel head
  let s := upd s walk newn
  return upd s newn (s oldn)

/-- `bfdev_slist_check_empty`, slist.h:95-99. -/
def checkEmpty (s : Heap) (head : Addr) : Bool := s head == 0
/-- `bfdev_slist_check_first`, slist.h:106-111. -/
def checkFirst (s : Heap) (head node : Addr) : Bool := s head == node
/-- `bfdev_slist_check_end`, slist.h:117-121. -/
def checkEnd (s : Heap) (node : Addr) : Bool := s node == 0
/-- `bfdev_slist_check_another`, slist.h:128-133. -/
def checkAnother (s : Heap) (head node : Addr) : Bool := s head == node && s node == 0

/-- `bfdev_slist_for_each_from`, slist.h:193-194, collecting the cursors. -/
def walkFrom (s : Heap) : Nat → Addr → Option (List Addr)
  | 0, _ => none
  | fuel + 1, pos => if pos = 0 then some [] else (walkFrom s fuel (s pos)).map (pos :: ·)

/-- `bfdev_slist_for_each`, slist.h:186-187. -/
def forEach (s : Heap) (head : Addr) (fuel : Nat) : Option (List Addr) := walkFrom s fuel (s head)

end Bfdev.Slist

import Verif.Dlist.Model
/-!
Model of `src/ilist.c` and `include/bfdev/ilist.h` on the circular lists of `Verif/Dlist/Model.lean`. A node contains two list heads;
no list ever mixes the two kinds, so each kind has its own memory, and a node is named by one address in both (the address offsets of
`container_of` are left out). The debug checks of ilist.c:14-67, on in the default configuration, are left out here
and added in `Verif/Ilist/Debug.lean` (C91).
-/
namespace Bfdev.Ilist
open Dlist (Addr)

/-- The `node_list` and `index_list` fields of every node, ilist.h:18-25. -/
structure State where
  nodes : Dlist.Heap
  index : Dlist.Heap

/-- `bfdev_ilist_head_init`, ilist.h:68-72. -/
def headInit (s : State) (head : Addr) : State := { s with nodes := Dlist.headInit s.nodes head }

/-- `bfdev_ilist_node_init`, ilist.h:78-82. -/
def nodeInit (s : State) (node : Addr) : State := { nodes := Dlist.headInit s.nodes node, index := Dlist.headInit s.index node }

/-- `bfdev_ilist_head_empty`, ilist.h. -/
def headEmpty (s : State) (head : Addr) : Bool := Dlist.checkEmpty s.nodes head

/-- `bfdev_ilist_node_empty`, ilist.h: the test is made on the index list. -/
def nodeEmpty (s : State) (node : Addr) : Bool := Dlist.checkEmpty s.index node

/-- The loop of `bfdev_ilist_add`, ilist.c:95-102. The results are `next`, `walk` and `prev`; `none` when the fuel runs out. -/
def scan (s : State) (head first inode : Addr) (cmp : Addr → Addr → Int) : Nat → Addr → Option Addr →
    Option (Addr × Addr × Option Addr)
  | 0, _, _ => none
  | fuel + 1, walk, prev =>
    if cmp inode walk < 0 then some (walk, walk, prev)
    else
      let prev := some walk
      let walk := s.index.next walk
      if walk ≠ first then scan s head first inode cmp fuel walk prev else some (head, walk, prev)

/-- Whether the new node enters the index, ilist.c:105. -/
def leads (cmp : Addr → Addr → Int) (inode : Addr) : Option Addr → Bool
  | none => true
  | some prev => cmp prev inode != 0

/-- `bfdev_ilist_add`, ilist.c:69-114. -/
def add (s : State) (head inode : Addr) (cmp : Addr → Addr → Int) (fuel : Nat) : Option State :=
  if !Dlist.checkEmpty s.nodes inode || !Dlist.checkEmpty s.index inode then some s
  else if headEmpty s head then some { s with nodes := Dlist.addPrev s.nodes head inode }
  else
    match scan s head (s.nodes.next head) inode cmp fuel (s.nodes.next head) none with
    | none => none
    | some (next, walk, prev) =>
      some { nodes := Dlist.addPrev s.nodes next inode
             index := if leads cmp inode prev then Dlist.addPrev s.index walk inode else s.index }

/-- The index part of `bfdev_ilist_del`, ilist.c:127-134. -/
def delIndex (s : State) (head inode : Addr) : Dlist.Heap :=
  if nodeEmpty s inode then s.index
  else if s.nodes.next inode ≠ head ∧ nodeEmpty s (s.index.next inode) = true then
    Dlist.delInit (Dlist.add s.index inode inode) inode
  else Dlist.delInit s.index inode

/-- `bfdev_ilist_del`, ilist.c:116-141. -/
def del (s : State) (head inode : Addr) : State :=
  { nodes := Dlist.delInit s.nodes inode, index := delIndex s head inode }

/-- `bfdev_ilist_for_each`: the nodes a caller sees, walking the node list. -/
def forEach (s : State) (head : Addr) (fuel : Nat) : Option (List Addr) := Dlist.forEach s.nodes head fuel

end Bfdev.Ilist

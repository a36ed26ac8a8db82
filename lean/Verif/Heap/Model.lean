import Verif.Scan.Model
/-!
Model of `src/heap.c` and `include/bfdev/heap.h`: a pointer-linked binary heap. A node is its address, address 0 is NULL; memory is the
three fields of every node and the two of the root. Following a NULL pointer, a shift by 64 or more and a loop that does not end are the
failing outcome `none`. The comparison callback is an arbitrary function on nodes. The debug checks
(BFDEV_DEBUG_HEAP), which the default configuration turns on, are left out here and added in `Verif/Heap/Debug.lean` (C91).
-/
namespace Bfdev.Heap

abbrev Addr := Nat

/-- `f` with the field of `a` overwritten. -/
def upd (f : Addr → Addr) (a v : Addr) : Addr → Addr := fun x => if x = a then v else f x

/-- `struct bfdev_heap_node` of every node and `struct bfdev_heap_root`, heap.h:20-29. -/
structure State where
  parent : Addr → Addr
  left : Addr → Addr
  right : Addr → Addr
  root : Addr
  count : Nat

def State.setParent (s : State) (a v : Addr) : State := { s with parent := upd s.parent a v }
def State.setLeft (s : State) (a v : Addr) : State := { s with left := upd s.left a v }
def State.setRight (s : State) (a v : Addr) : State := { s with right := upd s.right a v }
/-- `*a = *b` with the fields of `b` given. -/
def State.setNode (s : State) (a p l r : Addr) : State := ((s.setParent a p).setLeft a l).setRight a r

/-- `bfdev_heap_init`, heap.h:79-83. -/
def init (s : State) : State := { s with root := 0, count := 0 }

/-- The children of `node` get a new parent, heap.c:17-20. -/
def adopt (s : State) (node parent : Addr) : State :=
  let s := if s.left node ≠ 0 then s.setParent (s.left node) parent else s
  if s.right node ≠ 0 then s.setParent (s.right node) parent else s

/-- `node` takes over the children of its parent, the parent in its own place, heap.c:23-33. -/
def exchange (s : State) (parent node : Addr) : State :=
  if s.left parent = node then
    let s := s.setLeft node parent
    let s := s.setRight node (s.right parent)
    if s.right node ≠ 0 then s.setParent (s.right parent) node else s
  else
    let s := s.setRight node parent
    let s := s.setLeft node (s.left parent)
    if s.left node ≠ 0 then s.setParent (s.left parent) node else s

/-- `node` takes the place of `parent` below the grandparent, heap.c:35-43. -/
def hoist (s : State) (parent node : Addr) : State :=
  let gparent := s.parent parent
  let s := s.setParent node gparent
  if gparent = 0 then { s with root := node }
  else if s.left gparent = parent then s.setLeft gparent node
  else s.setRight gparent node

/-- `parent_swap`, heap.c:11-47. -/
def parentSwap (s : State) (parent node : Addr) : State :=
  let s := adopt s node parent
  let sp := s.parent node
  let sl := s.left node
  let sr := s.right node
  let s := exchange s parent node
  let s := hoist s parent node
  let s := s.setNode parent sp sl sr
  s.setParent parent node

/-- `bfdev_heap_fixup`, heap.c:49-60. -/
def fixup (cmp : Addr → Addr → Int) : Nat → State → Addr → Option State
  | 0, _, _ => none
  | fuel + 1, s, node =>
    let parent := s.parent node
    if parent = 0 then some s
    else if cmp node parent ≥ 0 then some s
    else fixup cmp fuel (parentSwap s parent node) node

/-- The choice of heap.c:78-89; NULL is passed to the comparison when only the right child exists. -/
def successor (cmp : Addr → Addr → Int) (s : State) (node : Addr) : Option Addr :=
  let child1 := s.left node
  let child2 := s.right node
  if child2 = 0 then some (s.left node)
  else if child1 = 0 then none
  else if cmp (s.left node) (s.right node) < 0 then some (s.left node)
  else some (s.right node)

/-- The loop of `bfdev_heap_erase`, heap.c:74-94. -/
def siftDown (cmp : Addr → Addr → Int) : Nat → State → Addr → Option State
  | 0, _, _ => none
  | fuel + 1, s, node =>
    if s.left node = 0 ∧ s.right node = 0 then some s
    else (successor cmp s node).bind fun next =>
      if cmp node next < 0 then some s else siftDown cmp fuel (parentSwap s node next) node

/-- `bfdev_heap_erase`, heap.c:62-95. -/
def erase (cmp : Addr → Addr → Int) (fuel : Nat) (s : State) (node : Addr) : Option State :=
  let parent := s.parent node
  if parent ≠ 0 ∧ cmp node parent < 0 then fixup cmp fuel s node else siftDown cmp fuel s node

/-- The descent of heap.c:208-213 and titer.h:228-233: from `node` along the bits of `index`, highest first. -/
def descend (s : State) (index : Nat) : Nat → Addr → Addr
  | 0, node => node
  | depth + 1, node => if node = 0 then 0 else descend s index depth (if index.testBit depth then s.right node else s.left node)

/-- `bfdev_heap_find`, heap.c:199-216. -/
def find (s : State) (index : Nat) : Option Addr :=
  (Scan.flsuf (BitVec.ofNat 64 s.count)).map fun depth => descend s index depth s.root

/-- A place a pointer to a node is stored in. -/
inductive Link where
  | root
  | left (a : Addr)
  | right (a : Addr)
  deriving DecidableEq, Repr

/-- `*link`. -/
def Link.get (s : State) : Link → Addr
  | .root => s.root
  | .left a => s.left a
  | .right a => s.right a

/-- `*link = v`. -/
def Link.set (s : State) (v : Addr) : Link → State
  | .root => { s with root := v }
  | .left a => s.setLeft a v
  | .right a => s.setRight a v

/-- The loop of `bfdev_heap_parent`, heap.c:188-194, returning the last parent and the link. -/
def parentLoop (s : State) (number : Nat) : Nat → Addr → Link → Option (Addr × Link)
  | 0, parent, link => some (parent, link)
  | depth + 1, _, link =>
    let parent := link.get s
    if parent = 0 then none
    else parentLoop s number depth parent (if number.testBit depth then .right parent else .left parent)

/-- `bfdev_heap_parent`, heap.c:174-197. -/
def findParent (s : State) : Option (Addr × Link) :=
  if s.root = 0 then some (0, .root)
  else
    let number := (s.count + 1) % 2 ^ 64
    (Scan.flsuf (BitVec.ofNat 64 number)).bind fun depth => parentLoop s number depth 0 .root

/-- `bfdev_heap_link`, heap.h:144-158. -/
def link (s : State) (parent : Addr) (l : Link) (node : Addr) : State :=
  let s := l.set s node
  let s := s.setParent node parent
  let s := s.setRight node 0
  let s := s.setLeft node 0
  { s with count := (s.count + 1) % 2 ^ 64 }

/-- `bfdev_heap_insert` with `bfdev_heap_insert_node`, heap.h:167-190. -/
def insert (cmp : Addr → Addr → Int) (fuel : Nat) (s : State) (node : Addr) : Option State :=
  (findParent s).bind fun pl => fixup cmp fuel (link s pl.1 pl.2 node) node

/-- The parent of `node` refers to `succ` instead, heap.c:159-165. -/
def relink (s : State) (node succ : Addr) : State :=
  let parent := s.parent node
  if parent = 0 then { s with root := succ }
  else if node = s.left parent then s.setLeft parent succ
  else if node = s.right parent then s.setRight parent succ
  else s

/-- `*successor = *node`, then the children and the parent of `node` refer to the successor, heap.c:152-165. -/
def inherit (s : State) (node succ : Addr) : State :=
  let s := s.setNode succ (s.parent node) (s.left node) (s.right node)
  let s := adopt s node succ
  relink s node succ

/-- `bfdev_heap_remove`, heap.c:97-172: the node to rebalance, 0 if none. -/
def remove (s : State) (node : Addr) : Option (State × Addr) :=
  (find s s.count).bind fun succ =>
    if succ = 0 then none
    else
      let parent := s.parent succ
      let r : State × Addr :=
        if parent = 0 then ({ s with root := 0 }, 0)
        else
          let s := if s.left parent = succ then s.setLeft parent 0 else s.setRight parent 0
          if node = succ then (s, 0) else (inherit s node succ, succ)
      some ({ r.1 with count := (r.1.count + 2 ^ 64 - 1) % 2 ^ 64 }, r.2)

/-- `bfdev_heap_delete`, heap.h:197-214, with the poison values of poison.h:30-32. -/
def delete (cmp : Addr → Addr → Int) (fuel : Nat) (s : State) (node : Addr) : Option State :=
  (remove s node).bind fun r =>
    (if r.2 ≠ 0 then erase cmp fuel r.1 r.2 else some r.1).map fun s => s.setNode node 0x520 0x500 0x510

/-- `bfdev_heap_first`, titer.h:214-220: the node and the index. -/
def first (s : State) : Addr × Nat := (s.root, 0)

/-- `bfdev_heap_next`, titer.h:222-236. -/
def next (s : State) (index : Nat) : Option (Addr × Nat) :=
  let index := (index + 1) % 2 ^ 64
  let number := (index + 1) % 2 ^ 64
  (Scan.flsuf (BitVec.ofNat 64 number)).map fun depth => (descend s number depth s.root, index)

/-- `bfdev_heap_for_each`, heap.h:266-268, collecting the nodes. -/
def forEach (s : State) : Nat → Addr × Nat → Option (List Addr)
  | 0, _ => none
  | fuel + 1, pos => if pos.1 = 0 then some [] else (next s pos.2).bind fun n => (forEach s fuel n).map (pos.1 :: ·)

end Bfdev.Heap

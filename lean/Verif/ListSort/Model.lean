import Verif.Dlist.Model
/-!
Model of `src/list-sort.c`. Memory is the heap of `next`/`prev` fields of the circular list model; address 0 is NULL and
following or comparing it is the failing outcome `none`. The comparison sees nodes and is a function of the two nodes.
Every loop carries fuel; running out of it (a loop that does not end) is `none` too.
-/
namespace Bfdev.ListSort
open Bfdev.Dlist (Addr Heap)

/-- Follow a pointer: `none` for NULL. -/
def deref (a : Addr) : Option Addr := if a = 0 then none else some a

/-- `*tail = v` in `list_merge`: `tail` is the address of the local `node` (`none`) or of a `next` field. -/
def storeNext (s : Heap) (node : Addr) (tail : Option Addr) (v : Addr) : Heap × Addr :=
  match tail with
  | none => (s, v)
  | some a => (s.setNext a v, node)

/-- The loop of `list_merge`, list-sort.c:16-34. -/
def mergeLoop (cmp : Addr → Addr → Int) : Nat → Heap → Addr → Option Addr → Addr → Addr → Option (Heap × Addr)
  | 0, _, _, _, _, _ => none
  | fuel + 1, s, node, tail, node1, node2 => do
    let node1 ← deref node1
    let node2 ← deref node2
    if cmp node1 node2 ≤ 0 then
      let (s, node) := storeNext s node tail node1
      let tail := some node1
      let node1 := s.next node1
      if node1 = 0 then some (storeNext s node tail node2)
      else mergeLoop cmp fuel s node tail node1 node2
    else
      let (s, node) := storeNext s node tail node2
      let tail := some node2
      let node2 := s.next node2
      if node2 = 0 then some (storeNext s node tail node1)
      else mergeLoop cmp fuel s node tail node1 node2

/-- `list_merge`, list-sort.c:9-37. The initial value of the local `node` is arbitrary. -/
def merge (cmp : Addr → Addr → Int) (fuel : Nat) (s : Heap) (node1 node2 : Addr) : Option (Heap × Addr) :=
  mergeLoop cmp fuel s 0 none node1 node2

/-- The first loop of `list_finish`, list-sort.c:46-64: the memory, the last node linked and the rest still to be linked. -/
def finishLoop (cmp : Addr → Addr → Int) : Nat → Heap → Addr → Addr → Addr → Option (Heap × Addr × Addr)
  | 0, _, _, _, _ => none
  | fuel + 1, s, tail, node1, node2 => do
    let node1 ← deref node1
    let node2 ← deref node2
    if cmp node1 node2 ≤ 0 then
      let s := (s.setNext tail node1).setPrev node1 tail
      let tail := node1
      let node1 := s.next node1
      if node1 = 0 then some (s, tail, node2)
      else finishLoop cmp fuel s tail node1 node2
    else
      let s := (s.setNext tail node2).setPrev node2 tail
      let tail := node2
      let node2 := s.next node2
      if node2 = 0 then some (s, tail, node1)
      else finishLoop cmp fuel s tail node1 node2

/-- The second loop of `list_finish`, list-sort.c:67-71. -/
def relink : Nat → Heap → Addr → Addr → Option (Heap × Addr)
  | 0, _, _, _ => none
  | fuel + 1, s, tail, node2 => do
    let node2 ← deref node2
    let s := s.setPrev node2 tail
    let tail := node2
    let node2 := s.next node2
    if node2 = 0 then some (s, tail) else relink fuel s tail node2

/-- `list_finish`, list-sort.c:39-75. -/
def finish (cmp : Addr → Addr → Int) (fuel : Nat) (s : Heap) (head node1 node2 : Addr) : Option Heap := do
  let (s, tail, node2) ← finishLoop cmp fuel s head node1 node2
  let s := s.setNext tail node2
  let (s, tail) ← relink fuel s tail node2
  return (s.setNext tail head).setPrev head tail

/-- `*tail` in the main loop: `tail` is the address of the local `pending` (`none`) or of a `prev` field. -/
def load (s : Heap) (pending : Addr) : Option Addr → Addr
  | none => pending
  | some a => s.prev a

/-- `*tail = v` in the main loop. -/
def storePrev (s : Heap) (pending : Addr) (tail : Option Addr) (v : Addr) : Heap × Addr :=
  match tail with
  | none => (s, v)
  | some a => (s.setPrev a v, pending)

/-- `for (bits = count; bits & 1; bits >>= 1) tail = &(*tail)->prev`, list-sort.c:95-96. `count` has 32 bits, so 33 rounds suffice. -/
def skip (s : Heap) (pending : Addr) : Nat → Option Addr → Nat → Option (Option Addr × Nat)
  | 0, _, _ => none
  | fuel + 1, tail, bits =>
    if bits % 2 = 1 then do
      let a ← deref (load s pending tail)
      skip s pending fuel (some a) (bits / 2)
    else some (tail, bits)

/-- The merge of two pending lists of the same size, list-sort.c:98-107. -/
def mergePending (cmp : Addr → Addr → Int) (mfuel : Nat) (s : Heap) (pending : Addr) (tail : Option Addr) (bits : Nat) : Option (Heap × Addr) :=
  if bits ≠ 0 then do
    let node2 ← deref (load s pending tail)
    let node1 ← deref (s.prev node2)
    let (s, node2) ← merge cmp mfuel s node1 node2
    let s := s.setPrev node2 (s.prev node1)
    some (storePrev s pending tail node2)
  else some (s, pending)

/-- The main loop, list-sort.c:90-114. `unsigned int count` wraps at 2^32. -/
def sortLoop (cmp : Addr → Addr → Int) (mfuel : Nat) : Nat → Heap → Addr → Addr → Nat → Option (Heap × Addr)
  | 0, _, _, _, _ => none
  | fuel + 1, s, pending, node, count =>
    if node = 0 then some (s, pending)
    else do
      let (tail, bits) ← skip s pending 33 none count
      let (s, pending) ← mergePending cmp mfuel s pending tail bits
      let s := s.setPrev node pending
      let pending := node
      let node := s.next node
      let s := s.setNext pending 0
      sortLoop cmp mfuel fuel s pending node ((count + 1) % 2 ^ 32)

/-- The final merges, list-sort.c:119-128: memory, the oldest pending list and the merge of all the others. -/
def collapse (cmp : Addr → Addr → Int) (mfuel : Nat) : Nat → Heap → Addr → Addr → Option (Heap × Addr × Addr)
  | 0, _, _, _ => none
  | fuel + 1, s, pending, node => do
    let pending ← deref pending
    let next := s.prev pending
    if next = 0 then some (s, pending, node)
    else
      let (s, node) ← merge cmp mfuel s pending node
      collapse cmp mfuel fuel s next node

/-- `bfdev_list_sort`, list-sort.c:77-131. -/
def sort (cmp : Addr → Addr → Int) (fuel : Nat) (s : Heap) (head : Addr) : Option Heap :=
  let node := s.next head
  if node = s.prev head then some s
  else do
    let s := s.setNext (s.prev head) 0
    let (s, pending) ← sortLoop cmp fuel fuel s 0 node 0
    let node ← deref pending
    let pending := s.prev node
    let (s, pending, node) ← collapse cmp fuel fuel s pending node
    finish cmp fuel s head pending node

end Bfdev.ListSort

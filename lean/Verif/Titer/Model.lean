import Verif.Rbtree.Model
/-!
Model of the post-order part of `include/bfdev/titer.h` on memory in which nodes can be given back while the tree is walked. `src/heap.c:218-233` and
`src/rbtree.c:641-662` expand the same macros for their node types. Following NULL or reading a field of a node that has been given back
is `none`, and so is a loop that runs out of fuel.
-/
namespace Bfdev.Titer

abbrev Addr := Nat

/-- The link fields of the nodes, and which nodes have not been given back. -/
structure Mem where
  par : Addr → Addr
  left : Addr → Addr
  right : Addr → Addr
  live : Addr → Bool

/-- Reading field `f` of `a`. -/
def Mem.rd (m : Mem) (f : Addr → Addr) (a : Addr) : Option Addr := if a ≠ 0 ∧ m.live a = true then some (f a) else none

/-- Giving a node back. -/
def Mem.free (m : Mem) (a : Addr) : Mem := { m with live := fun b => if b = a then false else m.live b }

/-- `_left_deep`, titer.h:34-47. -/
def leftDeep (m : Mem) : Nat → Addr → Option Addr
  | 0, _ => none
  | fuel + 1, node =>
    if node = 0 then some 0
    else do
      let l ← m.rd m.left node
      if l ≠ 0 then leftDeep m fuel l
      else
        let r ← m.rd m.right node
        if r ≠ 0 then leftDeep m fuel r else some node

/-- `_post_first`, titer.h:181-190. -/
def postFirst (m : Mem) (fuel : Nat) (root : Addr) : Option Addr := if root = 0 then some 0 else leftDeep m fuel root

/-- `_post_next`, titer.h:192-210. -/
def postNext (m : Mem) (fuel : Nat) (node : Addr) : Option Addr :=
  if node = 0 then some 0
  else do
    let parent ← m.rd m.par node
    if parent = 0 then some parent
    else
      let l ← m.rd m.left parent
      if node ≠ l then some parent
      else
        let r ← m.rd m.right parent
        if r ≠ 0 then leftDeep m fuel r else some parent

/-- `for (; pos && ({tmp = post_next(pos); 1;}); pos = tmp)`: rbtree.h:529-548, heap.h:361-380 and the `_entry` forms, with a body that gives back the
nodes chosen by `kill`. The nodes visited and the memory left. -/
def postSafe (kill : Addr → Bool) (deep : Nat) : Nat → Mem → Addr → Option (List Addr × Mem)
  | 0, _, _ => none
  | fuel + 1, m, pos =>
    if pos = 0 then some ([], m)
    else do
      let tmp ← postNext m deep pos
      let r ← postSafe kill deep fuel (if kill pos then m.free pos else m) tmp
      return (pos :: r.1, r.2)

/-- `_post_for_each_safe`, rbtree.h:529-531, heap.h:361-363. -/
def postForEachSafe (kill : Addr → Bool) (deep fuel : Nat) (m : Mem) (root : Addr) : Option (List Addr × Mem) := do
  postSafe kill deep fuel m (← postFirst m deep root)

/-- `_post_for_each_safe_continue`, rbtree.h:546-548, heap.h:378-380. -/
def postContinueSafe (kill : Addr → Bool) (deep fuel : Nat) (m : Mem) (pos : Addr) : Option (List Addr × Mem) := do
  postSafe kill deep fuel m (← postNext m deep pos)

/-- `for (; pos; pos = post_next(pos))`: rbtree.h:506-521, heap.h:338-354. The nodes visited. -/
def postWalk (deep : Nat) (m : Mem) : Nat → Addr → Option (List Addr)
  | 0, _ => none
  | fuel + 1, pos =>
    if pos = 0 then some []
    else do
      let r ← postWalk deep m fuel (← postNext m deep pos)
      return pos :: r

end Bfdev.Titer

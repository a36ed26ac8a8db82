import Verif.Rbtree.Model
/-!
Model of the interval tree, /repo/include/bfdev/segtree.h (macro `BFDEV_SEGTREE_DEFINE`), with the callbacks of
/repo/include/bfdev/rbtree.h:1028-1105, on top of the model of the red-black tree. The field `STSUBTREE` of a node is the augmented data of
the tree; the endpoint type `STTYPE` is modelled as the integers, and the endpoints of the nodes, which the functions never write, are
two functions `lo` (`STSTART`) and `hi` (`STEND`).
-/
namespace Bfdev.Segtree
open Rbtree (Addr Heap Cb Link upd)

/-- The endpoints stored in the nodes. -/
structure Ends where
  lo : Addr → Int
  hi : Addr → Int

/-- `if (child->RBAUGMENTED > max) max = child->RBAUGMENTED`, if there is a child; rbtree.h:1078-1087. -/
def raise (h : Heap Int) (child : Addr) (m : Int) : Int := if child ≠ 0 ∧ h.aug child > m then h.aug child else m

/-- The maximum `RBNAME##_compute_max` computes, rbtree.h:1071-1087. -/
def computeMax (E : Ends) (h : Heap Int) (node : Addr) : Int := raise h (h.right node) (raise h (h.left node) (E.hi node))

/-- `RBNAME##_rotate`, rbtree.h:1030-1040. -/
def rotate (E : Ends) (h : Heap Int) (node successor : Addr) : Addr → Int :=
  let h := { h with aug := upd h.aug successor (h.aug node) }
  upd h.aug node (computeMax E h node)

/-- `RBNAME##_copy`, rbtree.h:1042-1051. -/
def copy (h : Heap Int) (node successor : Addr) : Addr → Int := upd h.aug successor (h.aug node)

/-- `RBNAME##_propagate`, rbtree.h:1053-1063; the number of iterations is bounded by `fuel`, beyond which the model stops. -/
def propagate (E : Ends) : Nat → Heap Int → Addr → Addr → (Addr → Int)
  | 0, h, _, _ => h.aug
  | fuel + 1, h, node, stop =>
    if node = stop then h.aug
    else if h.aug node = computeMax E h node then h.aug
    else propagate E fuel { h with aug := upd h.aug node (computeMax E h node) } (h.par node) stop

/-- `STNAME##_callbacks`, segtree.h:145-148. -/
def callbacks (E : Ends) (fuel : Nat) : Cb Int := ⟨rotate E, copy, propagate E fuel⟩

/-- The loop of `STNAME##_insert`, segtree.h:164-174: heap, link, parent, leftmost. -/
def walk (E : Ends) (node : Addr) : Nat → Heap Int → Link → Addr → Bool → Option (Heap Int × Link × Addr × Bool)
  | 0, _, _, _, _ => none
  | fuel + 1, h, link, parent, leftmost =>
    let cur := link.get h
    if cur = 0 then some (h, link, parent, leftmost)
    else
      let h := if h.aug cur < E.hi node then { h with aug := upd h.aug cur (E.hi node) } else h
      if E.lo node < E.lo cur then walk E node fuel h (.left cur) cur leftmost
      else walk E node fuel h (.right cur) cur false

/-- `STNAME##_insert`, segtree.h:150-181, with `bfdev_rb_cached_insert_node_augmented`: heap and `cached->leftmost`. -/
def insert (E : Ends) (fuel : Nat) (h : Heap Int) (lm : Addr) (node : Addr) : Option (Heap Int × Addr) :=
  (walk E node fuel h .root 0 true).bind fun w =>
    (Rbtree.insertNode (callbacks E fuel) fuel w.1 w.2.2.1 w.2.1 node).map fun h =>
      ({ h with aug := upd h.aug node (E.hi node) }, if w.2.2.2 then node else lm)

/-- `STNAME##_delete`, segtree.h:183-189. -/
def delete (E : Ends) (fuel : Nat) (h : Heap Int) (lm : Addr) (node : Addr) : Option (Heap Int × Addr) :=
  (Rbtree.cachedDelete (callbacks E fuel) fuel h lm node).map fun r => (r.1, r.2.1)

/-- `STNAME##_search`, segtree.h:191-216; 0 is NULL. -/
def search (E : Ends) (start last : Int) (h : Heap Int) : Nat → Addr → Option Addr
  | 0, _ => none
  | fuel + 1, node =>
    if h.left node ≠ 0 ∧ h.aug (h.left node) ≥ start then search E start last h fuel (h.left node)
    else if E.lo node ≤ last then
      if start ≤ E.hi node then some node
      else if h.right node ≠ 0 ∧ h.aug (h.right node) ≥ start then search E start last h fuel (h.right node)
      else some 0
    else some 0

/-- `STNAME##_first`, segtree.h:218-235. -/
def first (E : Ends) (start last : Int) (fuel : Nat) (h : Heap Int) (lm : Addr) : Option Addr :=
  if h.root = 0 then some 0
  else if h.aug h.root < start then some 0
  else if E.lo lm > last then some 0
  else search E start last h fuel h.root

/-- The inner loop of `STNAME##_next`, segtree.h:249-256: the first ancestor not reached from its right child, `some 0` at the root. -/
def climb (h : Heap Int) : Nat → Addr → Option Addr
  | 0, _ => none
  | fuel + 1, node =>
    if h.par node = 0 then some 0
    else if h.right (h.par node) = node then climb h fuel (h.par node)
    else some (h.par node)

/-- `STNAME##_next`, segtree.h:237-263. -/
def next (E : Ends) (start last : Int) (h : Heap Int) (inner : Nat) : Nat → Addr → Option Addr
  | 0, _ => none
  | fuel + 1, node =>
    if h.right node ≠ 0 ∧ h.aug (h.right node) ≥ start then search E start last h inner (h.right node)
    else (climb h inner node).bind fun node =>
      if node = 0 then some 0
      else if last < E.lo node then some 0
      else if start ≤ E.hi node then some node
      else next E start last h inner fuel node

/-- `bfdev_segtree_for_each`, segtree.h:85-88: the nodes visited. -/
def visits (E : Ends) (start last : Int) (h : Heap Int) (inner : Nat) : Nat → Addr → Option (List Addr)
  | 0, _ => none
  | fuel + 1, node => if node = 0 then some [] else (next E start last h inner inner node).bind fun n => (visits E start last h inner fuel n).map (node :: ·)

end Bfdev.Segtree

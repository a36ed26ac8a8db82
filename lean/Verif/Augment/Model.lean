import Verif.Rbtree.Model
/-!
Model of the callbacks that `BFDEV_RB_DECLARE_CALLBACKS`, /repo/include/bfdev/rbtree.h:1028-1069, makes from a function that computes the summary of a
node from the node itself and the summaries of its children, on top of the model of the red-black tree. The summary is the augmented data of a node; the
rest of the node, which the functions never write, is known by its address.
-/
namespace Bfdev.Augment
open Rbtree (Addr Heap Cb Link upd)

variable {α : Type} [DecidableEq α]

/-- The summary of a node from the summaries of its left and its right subtree, `none` for no subtree. -/
abbrev Comb (α : Type) := Addr → Option α → Option α → α

/-- The summary of a child, if there is one; as in rbtree.h:1078-1087. -/
def kid (h : Heap α) (child : Addr) : Option α := if child ≠ 0 then some (h.aug child) else none

/-- What `RBCOMPUTE` stores in a node; `RBNAME##_compute_max`, rbtree.h:1071-1097, is one. -/
def compute (E : Comb α) (h : Heap α) (node : Addr) : α := E node (kid h (h.left node)) (kid h (h.right node))

/-- `RBNAME##_rotate`, rbtree.h:1030-1040. -/
def rotate (E : Comb α) (h : Heap α) (node successor : Addr) : Addr → α :=
  let h := { h with aug := upd h.aug successor (h.aug node) }
  upd h.aug node (compute E h node)

/-- `RBNAME##_copy`, rbtree.h:1042-1051. -/
def copy (h : Heap α) (node successor : Addr) : Addr → α := upd h.aug successor (h.aug node)

/-- `RBNAME##_propagate`, rbtree.h:1053-1063; `RBCOMPUTE(node, true)` reports whether the summary was right already. The number of iterations is bounded by
`fuel`, beyond which the model stops. -/
def propagate (E : Comb α) : Nat → Heap α → Addr → Addr → (Addr → α)
  | 0, h, _, _ => h.aug
  | fuel + 1, h, node, stop =>
    if node = stop then h.aug
    else if h.aug node = compute E h node then h.aug
    else propagate E fuel { h with aug := upd h.aug node (compute E h node) } (h.par node) stop

/-- The structure the macro defines, rbtree.h:1065-1069. -/
def callbacks (E : Comb α) (fuel : Nat) : Cb α := ⟨rotate E, copy, propagate E fuel⟩

/-- A caller's insertion: find the place with `bfdev_rb_parent`, `bfdev_rb_link` the node, compute its own summary and have the callback `propagate` bring those
above up to date; then `bfdev_rb_fixup_augmented`. (`bfdev_rb_insert_augmented` leaves the middle part out.) -/
def insert (E : Comb α) (fuel : Nat) (h : Heap α) (node : Addr) (c : Addr → Int) : Option (Heap α × Bool) :=
  match Rbtree.parent h c fuel with
  | none => none
  | some none => some (h, false)
  | some (some (l, p, _)) =>
    let h := Rbtree.link h p l node
    let h := { h with aug := upd h.aug node (compute E h node) }
    (Rbtree.fixup (callbacks E fuel) fuel ((callbacks E fuel).doPropagate h p 0) node).map (·, true)

/-- `bfdev_rb_delete_augmented`, rbtree.h:734-751. -/
def delete (E : Comb α) (fuel : Nat) (h : Heap α) (node : Addr) : Option (Heap α) := Rbtree.delete (callbacks E fuel) fuel h node

end Bfdev.Augment

import Verif.Rbtree.Model
/-!
Specification vocabulary for red-black trees: the tree that a heap holds, its orders, and the colouring rules.
-/
namespace Bfdev.Rbtree

/-- A binary tree of node addresses; the Boolean says whether the node is black. -/
inductive Tree where
  | nil
  | node (l : Tree) (a : Addr) (black : Bool) (r : Tree)
deriving DecidableEq, Repr

namespace Tree
/-- Address of the top node, `NULL` for the empty tree. -/
def top : Tree → Addr
  | nil => 0
  | node _ a _ _ => a
/-- Is the top node black (an empty tree counts as black)? -/
def isBlack : Tree → Bool
  | nil => true
  | node _ _ c _ => c
def inorder : Tree → List Addr
  | nil => []
  | node l a _ r => l.inorder ++ a :: r.inorder
def preorder : Tree → List Addr
  | nil => []
  | node l a _ r => a :: (l.preorder ++ r.preorder)
def postorder : Tree → List Addr
  | nil => []
  | node l a _ r => l.postorder ++ r.postorder ++ [a]
def size (t : Tree) : Nat := t.inorder.length
def height : Tree → Nat
  | nil => 0
  | node l _ _ r => max l.height r.height + 1
end Tree

variable {α : Type}

/-- The nodes of `t` are in the heap, linked as in `t`; the parent of the top node is `p`. -/
def Rep (h : Heap α) (p : Addr) : Tree → Prop
  | .nil => True
  | .node l a c r => a ≠ 0 ∧ h.par a = p ∧ h.left a = l.top ∧ h.right a = r.top ∧ h.black a = c ∧ Rep h a l ∧ Rep h a r

/-- The heap holds exactly the tree `t` at its root. -/
def Holds (h : Heap α) (t : Tree) : Prop := h.root = t.top ∧ Rep h 0 t ∧ t.inorder.Nodup

/-- Colouring rules with `n` black nodes on every way down: a red node has black children, and both sides have the same number of black nodes on
every way from the top to an empty tree. -/
def RB : Tree → Nat → Prop
  | .nil, n => n = 0
  | .node l _ true r, n => ∃ m, n = m + 1 ∧ RB l m ∧ RB r m
  | .node l _ false r, n => l.isBlack = true ∧ r.isBlack = true ∧ RB l n ∧ RB r n

/-- The colouring rules of a whole tree: the top is black. -/
def RedBlack (t : Tree) : Prop := t.isBlack = true ∧ ∃ n, RB t n

/-- Two heaps agree on the links and colour of node `a`. -/
def Agree (h h' : Heap α) (a : Addr) : Prop := h'.par a = h.par a ∧ h'.left a = h.left a ∧ h'.right a = h.right a ∧ h'.black a = h.black a

/-- Every node outside the list is untouched. -/
def Others (h h' : Heap α) (l : List Addr) : Prop := ∀ a, a ∉ l → Agree h h' a

/-- A three-way comparison of nodes: swapping the arguments flips the sign, and "not greater" is transitive. -/
structure Order (cmp : Addr → Addr → Int) : Prop where
  flip : ∀ a b, cmp a b < 0 ↔ 0 < cmp b a
  trans : ∀ a b c, cmp a b ≤ 0 → cmp b c ≤ 0 → cmp a c ≤ 0

/-- The nodes stand in strictly ascending order. -/
def Ascending (cmp : Addr → Addr → Int) (L : List Addr) : Prop := L.Pairwise (fun a b => cmp a b < 0)

/-- A comparison of the nodes with a key fits the order of the nodes: from left to right "less", "equal", "greater". -/
def Fits (f : Addr → Int) (L : List Addr) : Prop := L.Pairwise (fun a b => (0 < f a → 0 < f b) ∧ (f b < 0 → f a < 0))

/-- The calls of a history. -/
inductive Op where
  | insert (x : Addr)
  | delete (x : Addr)

/-- What a caller may do: insert a node that is not in the tree, delete one that is. -/
def Op.ok (L : List Addr) : Op → Prop
  | .insert x => x ≠ 0 ∧ x ∉ L
  | .delete x => x ∈ L

/-- What a call is to do to the ascending sequence of nodes: an insertion does nothing if an equal node is there, and otherwise puts the node
behind the smaller ones. -/
def Op.spec (cmp : Addr → Addr → Int) (L : List Addr) : Op → List Addr
  | .insert x => if L.any (fun a => cmp x a == 0) then L else L.filter (fun a => 0 < cmp x a) ++ x :: L.filter (fun a => cmp x a < 0)
  | .delete x => L.erase x

/-- A call. -/
def Op.run (cmp : Addr → Addr → Int) (cb : Cb α) (fuel : Nat) (h : Heap α) : Op → Option (Heap α)
  | .insert x => (Rbtree.insert cb fuel h x (cmp x)).map (·.1)
  | .delete x => Rbtree.delete cb fuel h x

/-- A history of calls. -/
def runAll (cmp : Addr → Addr → Int) (cb : Cb α) (fuel : Nat) : List Op → Heap α → Option (Heap α)
  | [], h => some h
  | o :: os, h => (o.run cmp cb fuel h).bind (runAll cmp cb fuel os)

/-- What it is to do. -/
def specAll (cmp : Addr → Addr → Int) : List Op → List Addr → List Addr
  | [], L => L
  | o :: os, L => specAll cmp os (o.spec cmp L)

/-- Every call of the history is allowed. -/
def okAll (cmp : Addr → Addr → Int) : List Op → List Addr → Prop
  | [], _ => True
  | o :: os, L => o.ok L ∧ okAll cmp os (o.spec cmp L)

end Bfdev.Rbtree

import Verif.Heap.Model
/-!
Specification of the heap: the nodes of a complete binary tree are numbered level by level from 1, so that the children of node `k` are
nodes `2k` and `2k + 1`.
-/
namespace Bfdev.Heap

/-- A three-way comparison of nodes: swapping the arguments flips the sign, and "not greater" is transitive. -/
structure Order (cmp : Addr → Addr → Int) : Prop where
  flip : ∀ a b, cmp a b < 0 ↔ 0 < cmp b a
  trans : ∀ a b c, cmp a b ≤ 0 → cmp b c ≤ 0 → cmp a c ≤ 0

/-- Memory holds a complete binary tree of `count` nodes; `g k` is node number `k`, or NULL outside the tree. -/
structure Shape (s : State) (g : Nat → Addr) : Prop where
  number : ∀ k : Nat, g k ≠ 0 ↔ 1 ≤ k ∧ k ≤ s.count
  inj : ∀ j k : Nat, g j ≠ 0 → g j = g k → j = k
  root : s.root = g 1
  left : ∀ k : Nat, g k ≠ 0 → s.left (g k) = g (2 * k)
  right : ∀ k : Nat, g k ≠ 0 → s.right (g k) = g (2 * k + 1)
  parent : ∀ k : Nat, g k ≠ 0 → s.parent (g k) = g (k / 2)

/-- No node is less than its parent. -/
def Ordered (cmp : Addr → Addr → Int) (g : Nat → Addr) : Prop := ∀ k : Nat, g k ≠ 0 → g (k / 2) ≠ 0 → cmp (g (k / 2)) (g k) ≤ 0

/-- The nodes, level by level. -/
def nodes (s : State) (g : Nat → Addr) : List Addr := (List.range s.count).map fun k => g (k + 1)

/-- The heap in memory consists of exactly the nodes `S`. -/
def IsHeap (cmp : Addr → Addr → Int) (s : State) (S : List Addr) : Prop :=
  ∃ g, Shape s g ∧ Ordered cmp g ∧ (nodes s g).Perm S

inductive Op where
  | insert (n : Addr)
  | delete (n : Addr)

def Op.run (cmp : Addr → Addr → Int) (fuel : Nat) (s : State) : Op → Option State
  | .insert n => Heap.insert cmp fuel s n
  | .delete n => Heap.delete cmp fuel s n

def runAll (cmp : Addr → Addr → Int) (fuel : Nat) (s : State) : List Op → Option State
  | [] => some s
  | op :: ops => (op.run cmp fuel s).bind fun s => runAll cmp fuel s ops

/-- The nodes after a history. -/
def specAll (S : List Addr) : List Op → List Addr
  | [] => S
  | .insert n :: ops => specAll (n :: S) ops
  | .delete n :: ops => specAll (S.erase n) ops

/-- What the caller owes: only nodes outside the heap are inserted and only nodes inside are deleted, and there are fewer than `bound`
nodes at any time. -/
def okAll (bound : Nat) (S : List Addr) : List Op → Prop
  | [] => True
  | .insert n :: ops => n ≠ 0 ∧ n ∉ S ∧ S.length + 1 < bound ∧ okAll bound (n :: S) ops
  | .delete n :: ops => n ∈ S ∧ okAll bound (S.erase n) ops

end Bfdev.Heap

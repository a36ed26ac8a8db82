import Verif.Ilist.Model
import Verif.Dlist.Spec
/-!
Specification of indexed lists: the nodes in order.
-/
namespace Bfdev.Ilist
open Dlist (Addr)

/-- Insert `x` before the first node it compares below. -/
def place (cmp : Addr → Addr → Int) (x : Addr) (l : List Addr) : List Addr :=
  (l.takeWhile fun y => !decide (cmp x y < 0)) ++ x :: l.dropWhile fun y => !decide (cmp x y < 0)

inductive Op where
  | add (x : Addr)
  | del (x : Addr)

/-- Adding a node that is already there and deleting a node that is not there do nothing. -/
def Op.spec (cmp : Addr → Addr → Int) (l : List Addr) : Op → List Addr
  | .add x => if x ∈ l then l else place cmp x l
  | .del x => l.erase x

def Op.run (cmp : Addr → Addr → Int) (head : Addr) (fuel : Nat) (s : State) : Op → Option State
  | .add x => Ilist.add s head x cmp fuel
  | .del x => some (Ilist.del s head x)

/-- The comparison callback is a total preorder. -/
structure Order (cmp : Addr → Addr → Int) : Prop where
  flip : ∀ a b, cmp a b < 0 ↔ 0 < cmp b a
  trans : ∀ a b c, cmp a b ≤ 0 → cmp b c ≤ 0 → cmp a c ≤ 0

/-- The comparison callback never answers "equal". -/
def NoTie (cmp : Addr → Addr → Int) : Prop := ∀ a b, cmp a b ≠ 0

/-- The node deleted is not the first of several equal ones. -/
def Safe (cmp : Addr → Addr → Int) (l : List Addr) (x : Addr) : Prop :=
  (∀ y ∈ l, y ≠ x → cmp x y ≠ 0) ∨ ∃ p r, l = p ++ x :: r ∧ ∃ y ∈ p, cmp y x = 0

/-- Nothing is asked of deletions of nodes that are not in the list. -/
def Op.Ok (cmp : Addr → Addr → Int) (head : Addr) (l : List Addr) : Op → Prop
  | .add x => x ≠ head
  | .del x => x ≠ head ∧ (x ∈ l → Safe cmp l x)

def specAll (cmp : Addr → Addr → Int) (l : List Addr) (ops : List Op) : List Addr := ops.foldl (Op.spec cmp) l

def OkAll (cmp : Addr → Addr → Int) (head : Addr) (l : List Addr) : List Op → Prop
  | [] => True
  | op :: ops => op.Ok cmp head l ∧ OkAll cmp head (op.spec cmp l) ops

def runAll (cmp : Addr → Addr → Int) (head : Addr) (fuel : Nat) (s : State) : List Op → Option State
  | [] => some s
  | op :: ops =>
    match op.run cmp head fuel s with
    | none => none
    | some s => runAll cmp head fuel s ops

/-- Sorted by the comparison callback. -/
def Sorted (cmp : Addr → Addr → Int) (l : List Addr) : Prop := l.Pairwise fun a b => cmp a b ≤ 0

/-- The list under `head` is empty and every node is initialised. -/
def fresh : State := { nodes := ⟨fun x => x, fun x => x⟩, index := ⟨fun x => x, fun x => x⟩ }

end Bfdev.Ilist

import Verif.Augment.Model
import Verif.Rbtree.Props
/-!
Specification of augmented trees: the summary of a sequence of nodes.
-/
namespace Bfdev.Augment
open Rbtree (Addr Heap Tree)

variable {α : Type}

/-- The summary does not depend on how the nodes hang together, only on their order. -/
class Lawful (E : Comb α) : Prop where
  rot : ∀ (p g : Addr) (A B C : Option α), E g (some (E p A B)) C = E p A (some (E g B C))

/-- The summary of a sequence of nodes. -/
def total (E : Comb α) : List Addr → Option α
  | [] => none
  | a :: l => some (E a none (total E l))

/-- Every node of the tree stores the summary of its subtree. -/
def Summed (E : Comb α) (aug : Addr → α) : Tree → Prop
  | .nil => True
  | .node l a c r => some (aug a) = total E (Tree.node l a c r).inorder ∧ Summed E aug l ∧ Summed E aug r

end Bfdev.Augment

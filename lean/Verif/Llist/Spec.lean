import Verif.Llist.Model
/-!
Specification of the lock-less list: the operations took effect one after the other.
-/
namespace Bfdev.Llist

/-- Following `next` from `p` meets the nodes `l` and then NULL. -/
def Chain (next : Nat → Nat) : Nat → List Nat → Prop
  | p, [] => p = 0
  | p, a :: l => p = a ∧ a ≠ 0 ∧ Chain next (next a) l

/-- What a plain list contains after the operations of the log (newest first). -/
def content : List (Tid × Ev) → List Nat
  | [] => []
  | (_, .push b _) :: l => b ++ content l
  | (_, .grab _ _) :: _ => []
  | (_, .del _) :: l => (content l).tail

/-- Every operation reported what the plain list would have reported: whether it was empty, all its nodes in order, its first node. -/
def Legal : List (Tid × Ev) → Prop
  | [] => True
  | (_, .push _ e) :: l => e = (content l).isEmpty ∧ Legal l
  | (_, .grab p nx) :: l => Chain nx p (content l) ∧ Legal l
  | (_, .del n) :: l => n = (content l).headD 0 ∧ Legal l

/-- All nodes ever put on the list. -/
def pushed : List (Tid × Ev) → List Nat
  | [] => []
  | (_, .push b _) :: l => b ++ pushed l
  | (_, _) :: l => pushed l

/-- The nodes a thread is about to put on the list. -/
def Loc.batch : Loc → List Nat
  | .pushA b _ => b
  | .pushB b _ => b
  | _ => []

/-- Fair use. A batch consists of different nodes, none of them on the list or in another thread's batch. Either nodes may be used
again once they left the list, and then nobody removes single nodes; or single nodes are removed, and every node is pushed once. -/
def Ok (reuse : Bool) (s : Sys) : Act → Prop
  | .push b => b.Nodup ∧ ∀ x ∈ b, x ≠ 0 ∧ x ∉ content s.log ∧ (∀ u, x ∉ (s.loc u).batch) ∧ (reuse = false → x ∉ pushed s.log)
  | .del => reuse = false
  | _ => True

/-- The states reached by some number of threads in some interleaving. -/
inductive Reach (reuse : Bool) : Sys → Prop
  | init (next) : Reach reuse (init next)
  | step {s s' t a} : Reach reuse s → Ok reuse s a → step s t a = some s' → Reach reuse s'

end Bfdev.Llist

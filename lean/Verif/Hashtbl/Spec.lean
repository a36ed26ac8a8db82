import Verif.Hashtbl.Model
import Verif.Hlist.Spec
/-!
Specification of a hash table: the list of the nodes in it with their keys, the newest first.
-/
namespace Bfdev.Hashtbl
open Bfdev.Dlist (Addr Heap)

inductive Op where
  | add (node : Addr) (key : BitVec 64)
  | del (node : Addr)

/-- What the code does. -/
def Op.run (head size : Nat) (s : Heap) : Op → Option Heap
  | .add n k => Hashmap.tblAdd s head size n k
  | .del n => Hashtbl.del s n

def runAll (head size : Nat) (s : Heap) : List Op → Option Heap
  | [] => some s
  | op :: ops => (op.run head size s).bind fun s => runAll head size s ops

/-- What it means. -/
def Op.apply (M : List (Addr × BitVec 64)) : Op → List (Addr × BitVec 64)
  | .add n k => (n, k) :: M
  | .del n => M.filter fun e => e.1 ≠ n

/-- The caller's duty: a node to be added is not NULL, is none of the heads of the table, is not in the table and not in another chain; a node to be
deleted is in the table. -/
def Legal (head size : Nat) (W : List (List Addr)) : List (Addr × BitVec 64) → List Op → Prop
  | _, [] => True
  | M, .add n k :: ops => n ≠ 0 ∧ (∀ i, i < size → n ≠ head + 8 * i) ∧ (∀ e ∈ M, e.1 ≠ n) ∧ n ∉ W.flatten ∧ Legal head size W ((Op.add n k).apply M) ops
  | M, .del n :: ops => (∃ k, (n, k) ∈ M) ∧ Legal head size W ((Op.del n).apply M) ops

/-- The nodes whose keys have the index `i`, the newest first. -/
def rowOf (size : Nat) (M : List (Addr × BitVec 64)) (i : Nat) : List Addr :=
  (M.filter fun e => Bloom.hashtblIndex (BitVec.ofNat 64 size) e.2 = some i).map (·.1)

end Bfdev.Hashtbl

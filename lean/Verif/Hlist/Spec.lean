import Verif.Hlist.Model
/-!
Specification of hash chains: memory consists of disjoint chains, each written as its head followed by its nodes.
-/
namespace Bfdev.Hlist
open Bfdev.Dlist (Addr Heap)

/-- From `a`, forward pointers run through `l` and end in NULL, and every node's back reference names the structure whose forward
pointer refers to it. -/
def Chain (s : Heap) (a : Addr) : List Addr → Prop
  | [] => s.next a = 0
  | x :: l => s.next a = x ∧ x ≠ 0 ∧ s.prev x = a ∧ Chain s x l

/-- A head and its nodes. -/
def IsChain (s : Heap) : List Addr → Prop
  | [] => False
  | h :: l => h ≠ 0 ∧ Chain s h l

structure World (s : Heap) (W : List (List Addr)) : Prop where
  chain : ∀ c ∈ W, IsChain s c
  nodup : W.flatten.Nodup

inductive Op where
  | headInit (h : Addr)
  | headAdd (h n : Addr)
  | nextAdd (a n : Addr)
  | del (x : Addr)
  | delInit (x : Addr)
  | headReplace (o n : Addr)
  | replace (o n : Addr)

def Op.run (s : Heap) : Op → Option Heap
  | .headInit h => some (Hlist.headInit s h)
  | .headAdd h n => some (Hlist.headAdd s h n)
  | .nextAdd a n => some (Hlist.nextAdd s a n)
  | .del x => Hlist.del s x
  | .delInit x => Hlist.delInit s x
  | .headReplace o n => some (Hlist.headReplace s o n)
  | .replace o n => Hlist.replace s o n

def runAll (s : Heap) : List Op → Option Heap
  | [] => some s
  | op :: ops => do runAll (← op.run s) ops

/-- What the operations mean on sequences. `nextAdd` is restricted to the last node: elsewhere the code is wrong (see the witness). -/
inductive Step : List (List Addr) → Op → List (List Addr) → Prop
  | perm {W W' op X} : W.Perm W' → Step W' op X → Step W op X
  | headInit {W h} : h ≠ 0 → h ∉ W.flatten → Step W (.headInit h) ([h] :: W)
  | headAdd {W h l n} : n ≠ 0 → n ∉ ((h :: l) :: W).flatten → Step ((h :: l) :: W) (.headAdd h n) ((h :: n :: l) :: W)
  | nextAdd {W l a n} : n ≠ 0 → n ∉ ((l ++ [a]) :: W).flatten → Step ((l ++ [a]) :: W) (.nextAdd a n) ((l ++ [a, n]) :: W)
  | del {W h l x r} : Step ((h :: l ++ x :: r) :: W) (.del x) ((h :: l ++ r) :: W)
  | delInit {W h l x r} : Step ((h :: l ++ x :: r) :: W) (.delInit x) ((h :: l ++ r) :: W)
  | headReplace {W o l n} : n ≠ 0 → n ∉ ((o :: l) :: W).flatten → Step ((o :: l) :: W) (.headReplace o n) ((n :: l) :: [o] :: W)
  | replace {W h l o r n} : n ≠ 0 → n ∉ ((h :: l ++ o :: r) :: W).flatten → Step ((h :: l ++ o :: r) :: W) (.replace o n) ((h :: l ++ n :: r) :: W)

inductive Steps : List (List Addr) → List Op → List (List Addr) → Prop
  | nil {W} : Steps W [] W
  | cons {W op W' ops W''} : Step W op W' → Steps W' ops W'' → Steps W (op :: ops) W''

end Bfdev.Hlist

import Verif.Slist.Model
/-!
Specification of singly linked lists: memory consists of disjoint null-terminated lists, each written as its head followed by its nodes.
-/
namespace Bfdev.Slist

/-- From `a`, forward pointers run through `l` and end in NULL. -/
def Chain (s : Heap) (a : Addr) : List Addr → Prop
  | [] => s a = 0
  | x :: l => s a = x ∧ x ≠ 0 ∧ Chain s x l

def IsList (s : Heap) : List Addr → Prop
  | [] => False
  | h :: l => h ≠ 0 ∧ Chain s h l

structure World (s : Heap) (W : List (List Addr)) : Prop where
  list : ∀ c ∈ W, IsList s c
  nodup : W.flatten.Nodup

inductive Op where
  | headInit (h : Addr)
  | add (a n : Addr)
  | del (h x : Addr)
  | replace (h o n : Addr)

/-- Run with enough fuel for every list in memory: `fuel` bounds the number of links a loop may follow. -/
def Op.run (fuel : Nat) (s : Heap) : Op → Option Heap
  | .headInit h => some (Slist.headInit s h)
  | .add a n => some (Slist.add s a n)
  | .del h x => Slist.del s h x fuel
  | .replace h o n => Slist.replace s h o n fuel

def runAll (fuel : Nat) (s : Heap) : List Op → Option Heap
  | [] => some s
  | op :: ops => do runAll fuel (← op.run fuel s) ops

/-- What the operations mean on sequences. -/
inductive Step : List (List Addr) → Op → List (List Addr) → Prop
  | perm {W W' op X} : W.Perm W' → Step W' op X → Step W op X
  | headInit {W h} : h ≠ 0 → h ∉ W.flatten → Step W (.headInit h) ([h] :: W)
  | add {W l a r n} : n ≠ 0 → n ∉ ((l ++ a :: r) :: W).flatten → Step ((l ++ a :: r) :: W) (.add a n) ((l ++ a :: n :: r) :: W)
  | del {W h l x r} : Step ((h :: l ++ x :: r) :: W) (.del h x) ((h :: l ++ r) :: W)
  | replace {W h l o r n} : n ≠ 0 → n ∉ ((h :: l ++ o :: r) :: W).flatten → Step ((h :: l ++ o :: r) :: W) (.replace h o n) ((h :: l ++ n :: r) :: W)

inductive Steps : List (List Addr) → List Op → List (List Addr) → Prop
  | nil {W} : Steps W [] W
  | cons {W op W' ops W''} : Step W op W' → Steps W' ops W'' → Steps W (op :: ops) W''

end Bfdev.Slist

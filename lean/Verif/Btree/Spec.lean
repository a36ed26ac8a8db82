import Verif.Btree.Model
/-! What a user of the B-tree relies on: it is a map from keys to pointers, and its elements are visited from the largest key down. -/
namespace Bfdev.Btree

/-- The map a user has in mind. -/
abbrev Map := Nat → Option Nat

def Map.set (M : Map) (k : Nat) (x : Option Nat) : Map := fun j => if j = k then x else M j

/-- The function of the user does not let this value go (btree.c:515-519). -/
def Keeps (ops : Ops) (v : Nat) : Prop := ∃ f, ops.remove = some f ∧ f v ≠ 0

/-- A key whose removal does not read outside the keys of a node: it is in the tree, or it is neither 0 nor equal to a stored pointer. See
`remove_zero_violated` and `remove_pointer_violated`. -/
def Removable (M : Map) (k : Nat) : Prop := M k ≠ none ∨ (k ≠ 0 ∧ ∀ j, M j ≠ some k)

/-- The trees that histories lead to, and the map of each history. Keys are words. An insertion that returns 0 for a new key stores its
value. A removal takes the key out, unless the function of the user keeps the value. -/
inductive Run (K : Nat) (mem : Nat → Bool) (ops : Ops) : Root → Map → Prop
  | init : Run K mem ops init fun _ => none
  | inserted {r M k v r'} : Run K mem ops r M → k < 2 ^ 64 → M k = none → insert K mem ops r k v = some (r', 0) → Run K mem ops r' (M.set k (some v))
  | refused {r M k v r' ret} : Run K mem ops r M → k < 2 ^ 64 → M k ≠ none ∨ ret ≠ 0 → insert K mem ops r k v = some (r', ret) → Run K mem ops r' M
  | removed {r M k r' x} : Run K mem ops r M → k < 2 ^ 64 → Removable M k → (∀ v, M k = some v → ¬ Keeps ops v) → remove ops r k = some (r', x) →
      Run K mem ops r' (M.set k none)
  | kept {r M k v r' x} : Run K mem ops r M → M k = some v → Keeps ops v → remove ops r k = some (r', x) → Run K mem ops r' M
  | updated {r M k v r' ret} : Run K mem ops r M → v ≠ 0 → M k ≠ none → update r k v = some (r', ret) → Run K mem ops r' (M.set k (some v))
  | missed {r M k v r' ret} : Run K mem ops r M → M k = none → k ≠ 0 → update r k v = some (r', ret) → Run K mem ops r' M
  | next {r M k r' x} : Run K mem ops r M → k < 2 ^ 64 → next r k = some (r', x) → Run K mem ops r' M
  | prev {r M k r' x} : Run K mem ops r M → k < 2 ^ 64 → prev r k = some (r', x) → Run K mem ops r' M
  | released {r M n r' out} : Run K mem ops r M → (∀ k v, M k = some v → ¬ Keeps ops v) → release ops n r = some (r', out) → Run K mem ops r' fun _ => none

/-- The least key above another one, with its value. -/
def IsAbove (M : Map) (k : Nat) (e : Nat × Nat) : Prop := k < e.1 ∧ M e.1 = some e.2 ∧ ∀ j, k < j → j < e.1 → M j = none

/-- The greatest key below another one, with its value. -/
def IsBelow (M : Map) (k : Nat) (e : Nat × Nat) : Prop := e.1 < k ∧ M e.1 = some e.2 ∧ ∀ j, e.1 < j → j < k → M j = none

/-- The elements of the map in the order of iteration. -/
def IsListing (M : Map) (l : List (Nat × Nat)) : Prop := l.Pairwise (fun x y => y.1 < x.1) ∧ ∀ k v, M k = some v ↔ (k, v) ∈ l

/-- The steps of `bfdev_btree_for_each`, btree.h:123-125, after the element with this key: the elements visited, if `n` steps suffice. -/
def walkFrom : Nat → Root → Nat → Option (Root × List (Nat × Nat))
  | 0, _, _ => none
  | n + 1, r, k =>
    (Btree.next r k).bind fun s =>
    match s with
    | (r, none) => some (r, [])
    | (r, some e) => if e.2 = 0 then some (r, []) else (walkFrom n r e.1).map fun t => (t.1, e :: t.2)

/-- `bfdev_btree_for_each`, btree.h:123-125. -/
def walk (n : Nat) (r : Root) : Option (Root × List (Nat × Nat)) :=
  (first r).bind fun x =>
  match x with
  | none => some (r, [])
  | some e => if e.2 = 0 then some (r, []) else (walkFrom n r e.1).map fun t => (t.1, e :: t.2)

end Bfdev.Btree

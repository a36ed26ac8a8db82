import Verif.Common.Mem
import Verif.Common.Loop
/-!
Model of `src/levenshtein.c`. `unsigned int` values are naturals below 2^32 with every operation reduced. The three rows start with
whatever the allocator left in them.
-/
namespace Bfdev.Levenshtein

/-- Reduction to `unsigned int`. -/
def w32 (n : Nat) : Nat := n % 4294967296

/-- The costs of a substitution, a swap, an addition and a deletion. -/
structure Costs where
  s : Nat
  w : Nat
  a : Nat
  d : Nat

/-- `if (v > x) v = x`. -/
def reward (v x : Nat) : Nat := if v > x then x else v

/-- The swap reward, levenshtein.c:45-48. -/
def swapReward (c : Costs) (str1 str2 : List Byte) (row1 : List Nat) (index2 index1 v : Nat) : Option Nat :=
  if index2 ≠ 0 ∧ index1 ≠ 0 ∧ str1[index1]? = str2[index2 - 1]? ∧ str1[index1 - 1]? = str2[index2]? then
    row1[index1 - 1]?.map fun x => reward v (w32 (x + c.w))
  else some v

/-- Body of the inner loop, levenshtein.c:41-57. -/
def inner (c : Costs) (str1 str2 : List Byte) (row1 row2 : List Nat) (index2 index1 : Nat) (row3 : List Nat) : Option (List Nat) :=
  str1[index1]?.bind fun x =>
  str2[index2]?.bind fun y =>
  row2[index1]?.bind fun r =>
  (swapReward c str1 str2 row1 index2 index1 (w32 (r + c.s * if x ≠ y then 1 else 0))).bind fun v =>
  row2[index1 + 1]?.bind fun r =>
  row3[index1]?.bind fun l =>
  setIdx row3 (index1 + 1) (reward (reward v (w32 (r + c.a))) (w32 (l + c.d)))

/-- The three rows. -/
structure Rows where
  row1 : List Nat
  row2 : List Nat
  row3 : List Nat

/-- Body of the outer loop, levenshtein.c:38-61, with the two pointer swaps at its end. -/
def outer (c : Costs) (str1 str2 : List Byte) (index2 : Nat) (m : Rows) : Option Rows :=
  (setIdx m.row3 0 (w32 ((index2 + 1) * c.a))).bind fun row3 =>
  (forN str1.length (inner c str1 str2 m.row1 m.row2 index2) row3).map fun row3 => ⟨m.row2, row3, m.row1⟩

/-- `bfdev_levenshtein_len`, levenshtein.c:10-67. `mem` is what the allocator delivers: the three rows with their previous contents, or
nothing. -/
def levenshtein (c : Costs) (str1 str2 : List Byte) (mem : Option Rows) : Option Nat :=
  if str1.length = 0 then some (w32 (str2.length * c.a))
  else if str2.length = 0 then some (w32 (str1.length * c.d))
  else
    match mem with
    | none => some 4294967295
    | some m =>
      (forN str1.length (fun i row => setIdx row i (w32 (i * c.d))) m.row2).bind fun row2 =>
      (forN str2.length (outer c str1 str2) ⟨m.row1, row2, m.row3⟩).bind fun m => m.row2[str1.length]?

end Bfdev.Levenshtein

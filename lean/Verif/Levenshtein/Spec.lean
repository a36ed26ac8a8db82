import Verif.Levenshtein.Model
/-!
Edit scripts and their costs.
-/
namespace Bfdev.Levenshtein

/-- `Edit c x y n`: there is an edit script of total cost `n` that turns `x` into `y`, going through the strings from the left and
keeping, replacing, deleting or adding one character or exchanging two neighbours. -/
inductive Edit (c : Costs) : List Byte → List Byte → Nat → Prop
  | done : Edit c [] [] 0
  | keep (x) {xs ys n} : Edit c xs ys n → Edit c (x :: xs) (x :: ys) n
  | substitute (x y) {xs ys n} : Edit c xs ys n → Edit c (x :: xs) (y :: ys) (n + c.s)
  | delete (x) {xs ys n} : Edit c xs ys n → Edit c (x :: xs) ys (n + c.d)
  | add (y) {xs ys n} : Edit c xs ys n → Edit c xs (y :: ys) (n + c.a)
  | swap (x y) {xs ys n} : Edit c xs ys n → Edit c (x :: y :: xs) (y :: x :: ys) (n + c.w)

/-- `n` is the least cost of an edit script. -/
def Least (c : Costs) (x y : List Byte) (n : Nat) : Prop := Edit c x y n ∧ ∀ m, Edit c x y m → n ≤ m

end Bfdev.Levenshtein

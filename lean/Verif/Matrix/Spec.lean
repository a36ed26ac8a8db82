import Verif.Matrix.Model
/-!
What matrices are: entries in row-major order.
-/
namespace Bfdev.Matrix

/-- `m` is an `r`×`c` matrix whose entry in row `i` and column `j` is `f i j`. -/
def Is (m : Mat) (r c : Nat) (f : Nat → Nat → Word) : Prop :=
  m.row = r ∧ m.col = c ∧ m.data.length = r * c ∧ ∀ i j, i < r → j < c → m.data[i * c + j]? = some (f i j)

/-- The sum of `f 0`, …, `f (n - 1)`. -/
def sum : Nat → (Nat → Word) → Word
  | 0, _ => 0
  | n + 1, f => sum n f + f n

end Bfdev.Matrix

/-!
Specification of rounding: on natural numbers and integers, without words.
-/
namespace Bfdev.Rounding

/-- `m` is the least multiple of `y` that is at least `x`. -/
def LeastMultiple (x y m : Nat) : Prop := y ∣ m ∧ x ≤ m ∧ ∀ k, y ∣ k → x ≤ k → m ≤ k

/-- `m` is the greatest multiple of `y` that is at most `x`. -/
def GreatestMultiple (x y m : Nat) : Prop := y ∣ m ∧ m ≤ x ∧ ∀ k, y ∣ k → k ≤ x → k ≤ m

/-- `q` is the least number with `n ≤ q * d`. -/
def Ceiling (n d q : Nat) : Prop := n ≤ q * d ∧ ∀ k, n ≤ k * d → q ≤ k

/-- `q` is a number nearest to `x / d`, of two equally near ones the one farther from zero. -/
def Nearest (x d q : Int) : Prop := 2 * (x - q * d).natAbs ≤ d.natAbs ∧ ∀ k : Int, (x - k * d).natAbs ≤ (x - q * d).natAbs → k = q ∨ k.natAbs < q.natAbs

/-- A total order of values. -/
structure Order {α : Type} (lt : α → α → Bool) : Prop where
  irrefl : ∀ a, lt a a = false
  trans : ∀ a b c, lt a b = true → lt b c = true → lt a c = true
  total : ∀ a b, lt a b = false → lt b a = false → a = b

end Bfdev.Rounding

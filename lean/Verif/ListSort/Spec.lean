import Verif.ListSort.Model
/-!
What a stable sort is asked to respect.
-/
namespace Bfdev.ListSort
open Bfdev.Dlist (Addr)

/-- A comparison that orders everything. -/
structure TotalPreorder (cmp : Addr → Addr → Int) : Prop where
  total : ∀ a b, cmp a b ≤ 0 ∨ cmp b a ≤ 0
  trans : ∀ a b c, cmp a b ≤ 0 → cmp b c ≤ 0 → cmp a c ≤ 0

/-- Neither comes before the other. -/
def eqv (cmp : Addr → Addr → Int) (a b : Addr) : Bool := decide (cmp a b ≤ 0) && decide (cmp b a ≤ 0)

end Bfdev.ListSort

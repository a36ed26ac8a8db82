import Verif.Radix.Model
/-! What a user of the radix tree relies on: it is a sparse array of pointers. -/
namespace Bfdev.Radix

/-- The sparse array a user has in mind: what was allocated and not freed, and where. -/
abbrev Sparse := Nat → Option Ptr

/-- Searching or freeing at this offset does not meet the wrong bound of `radix_parent` (radix.c:44: `>` where `≥` is meant): the highest
bit of the offset is not the first bit the tree has no room for. See `alias_violated` and `bounds_violated`. -/
def Clear (r : Root) (offset : Nat) : Prop := r.node = none ∨ offset.log2 ≠ shift r.level

instance (r : Root) (offset : Nat) : Decidable (Clear r offset) := by
  unfold Clear
  cases r.node with
  | none => exact isTrue (Or.inl rfl)
  | some n => exact decidable_of_iff (offset.log2 ≠ shift r.level) (by simp)

/-- The trees that histories lead to, and the sparse array of each history. Elements are allocated below `2^63`: above, the tree becomes
too high for the array of parents, see `high_violated`. -/
inductive Run (mem : Nat → Bool) : Root → Sparse → Prop
  | init : Run mem init fun _ => none
  | alloc {r M offset r' p} : Run mem r M → offset < 2 ^ 63 → alloc mem r offset = some (r', some p) → Run mem r' (set M offset (some p))
  | refused {r M offset r'} : Run mem r M → offset < 2 ^ 63 → alloc mem r offset = some (r', none) → Run mem r' M
  | free {r M offset r' e} : Run mem r M → Clear r offset → free r offset = some (r', e) → Run mem r' (set M offset none)
  | release {r M} : Run mem r M → Run mem (release r) fun _ => none

/-- The least element above an offset. -/
def IsNext (M : Sparse) (offset o' : Nat) : Prop := offset < o' ∧ M o' ≠ none ∧ ∀ x, offset < x → x < o' → M x = none

/-- The greatest element below an offset. -/
def IsPrev (M : Sparse) (offset o' : Nat) : Prop := o' < offset ∧ M o' ≠ none ∧ ∀ x, o' < x → x < offset → M x = none

end Bfdev.Radix

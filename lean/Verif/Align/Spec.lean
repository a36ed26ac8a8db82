import Verif.Align.Model
/-! Specification of alignment (C113), about integers only. -/
namespace Bfdev.Align

/-- `r` is the greatest multiple of `a` that is not above `v`. -/
def Below (v a r : Int) : Prop := a ∣ r ∧ r ≤ v ∧ ∀ k, a ∣ k → k ≤ v → k ≤ r

/-- `r` is the least multiple of `a` that is not below `v`. -/
def Above (v a r : Int) : Prop := a ∣ r ∧ v ≤ r ∧ ∀ k, a ∣ k → v ≤ k → r ≤ k

/-- The alignment has an unsigned type narrower than that of the value: its complement has no bits above that width. -/
def Narrow (tv ta : Ty) : Prop := ta.promote.signed = false ∧ ta.promote.bits < tv.promote.bits

instance (tv ta : Ty) : Decidable (Narrow tv ta) := by unfold Narrow; infer_instance

end Bfdev.Align

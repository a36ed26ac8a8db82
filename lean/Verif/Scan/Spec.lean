/-! Specification vocabulary for bit scans: independent of the model. -/
namespace Bfdev.Scan

/-- `i` is the position of the least significant one bit of `v`. -/
def IsFirst {w : Nat} (v : BitVec w) (i : Nat) : Prop := v.getLsbD i = true ∧ ∀ j, j < i → v.getLsbD j = false
/-- `i` is the position of the most significant one bit of `v`. -/
def IsLast {w : Nat} (v : BitVec w) (i : Nat) : Prop := v.getLsbD i = true ∧ ∀ j, i < j → v.getLsbD j = false
/-- The positions of the one bits of `v`, ascending. -/
def setBits {w : Nat} (v : BitVec w) : List Nat := (List.range w).filter (fun i => v.getLsbD i)

end Bfdev.Scan

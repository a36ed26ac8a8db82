import Verif.Bitops.Model
/-!
Specification of single-bit operations: an array of truth values indexed by bit number, changed at one place.
-/
namespace Bfdev.Bitops

/-- What a call makes of the bit. -/
def Call.effect (old : Bool) : Call → Bool
  | .clr | .testClr => false
  | .set | .testSet => true
  | .flip | .testFlip => !old
  | .change v | .testChange v => v
  | .test => old

/-- The array of bits that the words of memory stand for. -/
def bits (m : Mem) (i : Nat) : Bool := (m (i / 64)).getLsbD (i % 64)

/-- One call after the other (the log is kept latest first): every call finds the bit as the calls before left it and changes nothing else. -/
def Explains (B : Nat → Bool) : List (Tid × Ev) → (Nat → Bool) → Prop
  | [], B' => B' = B
  | (_, e) :: l, B' => ∃ B1, Explains B l B1 ∧ e.old = B1 e.bit ∧ B' = upd B1 e.bit (e.call.effect (B1 e.bit))

end Bfdev.Bitops

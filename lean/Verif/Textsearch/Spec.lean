import Verif.Textsearch.Model
/-!
What searching means.
-/
namespace Bfdev.Textsearch

/-- The pattern occurs in the text at position `p`, up to case when `icase`. -/
def OccursAt (icase : Bool) (pattern text : List Byte) (p : Nat) : Prop :=
  p + pattern.length ≤ text.length ∧ ((text.drop p).take pattern.length).map (fold icase) = pattern.map (fold icase)

/-- `p` is the first occurrence at or after `o`. -/
def FirstFrom (icase : Bool) (pattern text : List Byte) (o p : Nat) : Prop :=
  o ≤ p ∧ OccursAt icase pattern text p ∧ ∀ q, o ≤ q → OccursAt icase pattern text q → p ≤ q

/-- The callback delivers the text in blocks: at every position before the end some bytes from there on, at the end nothing. -/
def Delivers (next : Nat → List Byte) (text : List Byte) : Prop :=
  ∀ c, (c < text.length → next c ≠ [] ∧ next c <+: text.drop c) ∧ (text.length ≤ c → next c = [])

end Bfdev.Textsearch

import Verif.Argv.Model
/-!
What splitting means.
-/
namespace Bfdev.Argv

/-- Space, tab, carriage return and line feed. -/
def Blank (c : Byte) : Prop := c = 32 ∨ c = 9 ∨ c = 13 ∨ c = 10

/-- `ws` are the maximal runs of non-blank characters of `s`, in order. -/
inductive Words : List Byte → List (List Byte) → Prop
  | none {s} : (∀ c ∈ s, Blank c) → Words s []
  | word {blanks w rest ws} : (∀ c ∈ blanks, Blank c) → (w ≠ [] ∧ ∀ c ∈ w, ¬ Blank c) → (∀ c, rest.head? = some c → Blank c) →
      Words rest ws → Words (blanks ++ w ++ rest) (w :: ws)

/-- The C string stored at offset `p`: the bytes up to a zero byte. -/
def CString (mem : List Byte) (p : Nat) (w : List Byte) : Prop := (0 : Byte) ∉ w ∧ ∃ pre post, mem = pre ++ w ++ 0 :: post ∧ pre.length = p

end Bfdev.Argv

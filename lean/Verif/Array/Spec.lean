import Verif.Array.Model
/-! Specification of the dynamic array: a list of elements (each a byte string of the element size). -/
namespace Bfdev.Array

/-- What one call may do to a list of elements and answer. Failure of a growing call is allowed only when the allocator
refused or the element count would not fit a machine word, and then nothing changes. -/
def SpecStep (cells : Nat) (xs : List (List Byte)) : Op → Out → List (List Byte) → Prop
  | .push es g, o, xs' =>
    (o = .ok true ∧ xs' = xs ++ es) ∨
    (o = .ok false ∧ xs' = xs ∧ (g.isNone ∨ 2 ^ 64 ≤ xs.length + es.length ∨ es = []))
  | .pop n, o, xs' =>
    if n ≤ xs.length then
      (o = .bytes (some (xs.drop (xs.length - n)).flatten) ∨ (n = 0 ∧ o = .bytes none)) ∧ xs' = xs.take (xs.length - n)
    else o = .bytes none ∧ xs' = xs
  | .peek n, o, xs' =>
    xs' = xs ∧ if n ≤ xs.length then o = .bytes (some (xs.drop (xs.length - n)).flatten) ∨ (n = 0 ∧ o = .bytes none)
      else o = .bytes none
  | .get i, o, xs' => xs' = xs ∧ o = .bytes xs[i]?
  | .resize n g, o, xs' =>
    (o = .ok true ∧ xs'.length = n ∧ (∀ x ∈ xs', x.length = cells) ∧ ∀ i, i < n → i < xs.length → xs'[i]? = xs[i]?) ∨
    (o = .ok false ∧ xs' = xs ∧ g.isNone)
  | .reserve n g, o, xs' => xs' = xs ∧ (o = .ok true ∨ (o = .ok false ∧ (g.isNone ∨ 2 ^ 64 ≤ xs.length + n)))
  | .getIndex, o, xs' => xs' = xs ∧ o = .count xs.length
  | .reset, o, xs' => xs' = [] ∧ o = .ok true
  | .release, o, xs' => xs' = [] ∧ o = .ok true

/-- A history of calls and answers explained by a list. -/
inductive SpecRun (cells : Nat) : List (List Byte) → List Op → List Out → Prop
  | nil {xs} : SpecRun cells xs [] []
  | cons {xs op o xs' ops os} : SpecStep cells xs op o xs' → SpecRun cells xs' ops os → SpecRun cells xs (op :: ops) (o :: os)

/-- The caller's obligations: elements have the element size, and the requested total stays below `2^63` bytes (with the
library's minimum request of 32 elements), or the element count itself overflows. `len` is the current length. -/
def Op.Ok (cells : Nat) (len : Nat) : Op → Prop
  | .push es _ => (∀ e ∈ es, e.length = cells) ∧ (2 ^ 64 ≤ len + es.length ∨ max 32 (len + es.length) * cells ≤ 2 ^ 63)
  | .resize n _ => max 32 n * cells ≤ 2 ^ 63
  | .reserve n _ => 2 ^ 64 ≤ len + n ∨ max 32 (len + n) * cells ≤ 2 ^ 63
  | _ => True

end Bfdev.Array

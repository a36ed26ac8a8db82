/-!
Counting loops `for (i = 0; i < n; ++i)` over a state, with a body that can fail, and their invariant rule.
-/
namespace Bfdev

/-- `for (i = 0; i < n; ++i) f(i)`. -/
def forN {σ : Type} : Nat → (Nat → σ → Option σ) → σ → Option σ
  | 0, _, s => some s
  | n + 1, f, s => (forN n f s).bind (f n)

theorem forN_inv {σ : Type} (P : Nat → σ → Prop) (n : Nat) (f : Nat → σ → Option σ) (s : σ) (h0 : P 0 s)
    (hs : ∀ i, i < n → ∀ t, P i t → ∃ t', f i t = some t' ∧ P (i + 1) t') : ∃ t, forN n f s = some t ∧ P n t := by
  induction n with
  | zero => exact ⟨s, rfl, h0⟩
  | succ n ih =>
    obtain ⟨t, h1, h2⟩ := ih fun i hi => hs i (by omega)
    obtain ⟨t', h3, h4⟩ := hs n (by omega) t h2
    exact ⟨t', by rw [forN, h1, Option.bind_some, h3], h4⟩

/-- Store `v` at index `i` of an array. -/
def setIdx {α : Type} (l : List α) (i : Nat) (v : α) : Option (List α) := if i < l.length then some (l.set i v) else none

theorem setIdx_some {α : Type} {l : List α} {i : Nat} (v : α) (h : i < l.length) : setIdx l i v = some (l.set i v) := if_pos h

end Bfdev

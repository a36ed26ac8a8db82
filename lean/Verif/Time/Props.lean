import Verif.Time.Model
/-!
C125: points of time compare like their values.
-/
namespace Bfdev.Time

/-- **C125.** The comparisons are those of the values; there is no wrap-around. -/
theorem compare_order (a b : Int) : (after a b = true ↔ b < a) ∧ (before a b = true ↔ a < b) ∧ (afterEqual a b = true ↔ b ≤ a) ∧ (beforeEqual a b = true ↔ a ≤ b) ∧
    (compare a b = 0 ↔ a = b) ∧ compare b a = - compare a b := by
  rcases Int.lt_trichotomy a b with h | h | h
  · have h1 : a ≠ b := by omega
    have h2 : b ≠ a := by omega
    have h3 : ¬ b < a := by omega
    simp [after, before, afterEqual, beforeEqual, compare, cmp, h1, h2, h, h3]; omega
  · subst h; simp [after, before, afterEqual, beforeEqual, compare]
  · have h1 : a ≠ b := by omega
    have h2 : b ≠ a := by omega
    have h3 : ¬ a < b := by omega
    simp [after, before, afterEqual, beforeEqual, compare, cmp, h1, h2, h, h3]; omega

/-- **C125.** Adding and subtracting a period are exact and undo each other, and are defined exactly if the result is a point of time. -/
theorem add_sub (t d : Int) (ht : -2 ^ 63 ≤ t ∧ t < 2 ^ 63) : (∀ u, add t d = some u ↔ (u = t + d ∧ -2 ^ 63 ≤ u ∧ u < 2 ^ 63)) ∧ (∀ u, sub t d = some u ↔ (u = t - d ∧ -2 ^ 63 ≤ u ∧ u < 2 ^ 63)) ∧
    (∀ u, add t d = some u → sub u d = some t) ∧ ∀ u, sub t d = some u → add u d = some t := by
  have h1 : ∀ u, add t d = some u ↔ (u = t + d ∧ -2 ^ 63 ≤ u ∧ u < 2 ^ 63) := by
    intro u; unfold add; by_cases hr : InRange (t + d)
    · rw [if_pos hr]; unfold InRange at hr; simp only [Option.some.injEq]; omega
    · rw [if_neg hr]; unfold InRange at hr; simp only [reduceCtorEq, false_iff]; omega
  have h2 : ∀ u, sub t d = some u ↔ (u = t - d ∧ -2 ^ 63 ≤ u ∧ u < 2 ^ 63) := by
    intro u; unfold sub; by_cases hr : InRange (t - d)
    · rw [if_pos hr]; unfold InRange at hr; simp only [Option.some.injEq]; omega
    · rw [if_neg hr]; unfold InRange at hr; simp only [reduceCtorEq, false_iff]; omega
  refine ⟨h1, h2, fun u e => ?_, fun u e => ?_⟩
  · obtain ⟨rfl, _⟩ := (h1 u).1 e
    unfold sub; rw [show t + d - d = t by omega, if_pos (show InRange t from ht)]
  · obtain ⟨rfl, _⟩ := (h2 u).1 e
    unfold add; rw [show t - d + d = t by omega, if_pos (show InRange t from ht)]

/-- **C125.** A deadline has passed exactly if more than the period has gone by since it was set. -/
theorem deadline {begin period now limit : Int} (e : add begin period = some limit) : after now limit = true ↔ period < now - begin := by
  rw [(compare_order now limit).1]
  unfold add at e
  split at e
  · cases e; omega
  · cases e

example : add 5 7 = some 12 ∧ after 13 12 = true ∧ after 12 12 = false ∧ add (2 ^ 63 - 1) 1 = none ∧ InRange 5 := by decide

end Bfdev.Time

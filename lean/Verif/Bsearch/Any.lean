import Verif.Bsearch.Model
/-!
Binary search with a callback that answers anything (C107): the `k`-th call of the callback is `find k`. `countSearch_plain`
shows that the counting changes nothing else.
-/
namespace Bfdev.Bsearch

/-- The loop of `bfdev_bsearch_inline` with the calls counted, bsearch.h:22-35. -/
def countLoop {α : Type} (elems : List α) (find : Nat → α → Int) (k base num : Nat) : Option (Option Nat × Nat) :=
  if h : num = 0 then some (none, k)
  else
    let pivot := base + num / 2
    match elems[pivot]? with
    | none => none
    | some e =>
      let result := find k e
      if result = 0 then some (some pivot, k + 1)
      else if result < 0 then countLoop elems find (k + 1) (pivot + 1) ((num - 1) / 2)
      else countLoop elems find (k + 1) base (num / 2)
termination_by num
decreasing_by all_goals omega

/-- `bfdev_bsearch` with the calls counted, src/bsearch.c:9-14, bsearch.h:15-38. -/
def countSearch {α : Type} (elems : List α) (find : Nat → α → Int) : Option (Option Nat × Nat) := countLoop elems find 0 0 elems.length

theorem countLoop_plain {α : Type} (elems : List α) (find : α → Int) (num k base : Nat) :
    (countLoop elems (fun _ => find) k base num).map (·.1) = loop elems find base num := by
  induction num using Nat.strongRecOn generalizing k base with
  | _ num ih =>
    unfold countLoop loop
    by_cases h : num = 0
    · rw [dif_pos h, dif_pos h]; rfl
    · rw [dif_neg h, dif_neg h]
      dsimp only
      cases elems[base + num / 2]? with
      | none => rfl
      | some e =>
        dsimp only
        split
        · rfl
        · split
          · exact ih _ (by omega) _ _
          · exact ih _ (by omega) _ _

/-- Counting the calls changes nothing else. -/
theorem countSearch_plain {α : Type} (elems : List α) (find : α → Int) :
    (countSearch elems (fun _ => find)).map (·.1) = bsearch elems find := countLoop_plain _ _ _ _ _

theorem countLoop_any {α : Type} (elems : List α) (find : Nat → α → Int) (num k base : Nat) (hin : base + num ≤ elems.length) :
    ∃ r k', countLoop elems find k base num = some (r, k') ∧ k ≤ k' ∧ (num = 0 → k' = k) ∧ (0 < num → k' ≤ k + num.log2 + 1) ∧
      ∀ i, r = some i → k < k' ∧ ∃ a, elems[i]? = some a ∧ find (k' - 1) a = 0 := by
  induction num using Nat.strongRecOn generalizing k base with
  | _ num ih =>
    unfold countLoop
    by_cases h : num = 0
    · rw [dif_pos h]
      exact ⟨none, k, rfl, Nat.le_refl _, fun _ => rfl, by omega, by simp⟩
    · rw [dif_neg h]
      have hp : base + num / 2 < elems.length := by omega
      simp only [List.getElem?_eq_getElem hp]
      have key : ∀ m b, m ≤ num / 2 → m < num → b + m ≤ elems.length → ∃ r k', countLoop elems find (k + 1) b m = some (r, k') ∧ k ≤ k' ∧
          (num = 0 → k' = k) ∧ (0 < num → k' ≤ k + num.log2 + 1) ∧ ∀ i, r = some i → k < k' ∧ ∃ a, elems[i]? = some a ∧ find (k' - 1) a = 0 := by
        intro m b h1 h2 h3
        obtain ⟨r, k', a1, a2, a3, a4, a5⟩ := ih m h2 (k + 1) b h3
        refine ⟨r, k', a1, by omega, by omega, fun _ => ?_, fun i hi => ⟨by omega, (a5 i hi).2⟩⟩
        by_cases hm : m = 0
        · have := a3 hm; omega
        · have := a4 (by omega)
          have e : num.log2 = (num / 2).log2 + 1 := by rw [Nat.log2_def, if_pos (by omega)]
          have e2 : m.log2 ≤ (num / 2).log2 := by
            have h4 := Nat.log2_self_le (n := m) (by omega)
            exact (Nat.le_log2 (by omega)).2 (by omega)
          omega
      split
      · next h0 =>
        refine ⟨_, _, rfl, by omega, by omega, by omega, fun i hi => ⟨by omega, elems[base + num / 2], ?_, h0⟩⟩
        injection hi with hi
        rw [← hi]; exact List.getElem?_eq_getElem hp
      · split
        · exact key _ _ (by omega) (by omega) (by omega)
        · exact key _ _ (by omega) (by omega) (by omega)

/-- **C107**, binary search: whatever the callback answers, call by call, the search ends, asks about elements of the array only,
at most `log2 n + 1` times, never about an empty array, and returns an element only if the last answer, about that element, was 0. -/
theorem any_answers {α : Type} (elems : List α) (find : Nat → α → Int) :
    ∃ r calls, countSearch elems find = some (r, calls) ∧ (elems = [] → calls = 0) ∧ calls ≤ elems.length.log2 + 1 ∧
      ∀ i, r = some i → 0 < calls ∧ ∃ a, elems[i]? = some a ∧ find (calls - 1) a = 0 := by
  obtain ⟨r, k, a1, a2, a3, a4, a5⟩ := countLoop_any elems find elems.length 0 0 (by omega)
  refine ⟨r, k, a1, fun h => a3 (by simp [h]), ?_, fun i hi => ⟨by have := a5 i hi; omega, (a5 i hi).2⟩⟩
  by_cases h : elems.length = 0
  · rw [a3 h]; omega
  · have := a4 (by omega); omega

/-- The bound is reached; a callback that contradicts itself. -/
example : countSearch [10, 20, 30, 40, 50, 60, 70] (fun _ x => x - 75) = some (none, 3) ∧
    countSearch [10, 20, 30, 40, 50, 60, 70] (fun k _ => if k = 2 then 0 else if k = 1 then 1 else -1) = some (some 4, 3) := by decide +kernel

end Bfdev.Bsearch

import Verif.Bsearch.Model
/-! Property theorems for binary search (C09). -/
namespace Bfdev.Bsearch

/-- The array is ordered with respect to the searched key: `find` never answers "greater or equal" before it answers "less",
nor "greater" before "equal". -/
def Ordered {α : Type} (elems : List α) (find : α → Int) : Prop :=
  ∀ (i j : Nat) (a b : α), elems[i]? = some a → elems[j]? = some b → i ≤ j →
    (find b < 0 → find a < 0) ∧ (0 < find a → 0 < find b)

theorem loop_correct {α : Type} (elems : List α) (find : α → Int) (ho : Ordered elems find) (num base : Nat)
    (hin : base + num ≤ elems.length)
    (hlo : ∀ i a, elems[i]? = some a → i < base → find a < 0)
    (hhi : ∀ i a, elems[i]? = some a → base + num ≤ i → 0 < find a) :
    ∃ r, loop elems find base num = some r ∧
      (∀ i, r = some i → ∃ a, elems[i]? = some a ∧ find a = 0) ∧
      (r = none → ∀ a ∈ elems, find a ≠ 0) := by
  induction num using Nat.strongRecOn generalizing base with
  | _ num ih =>
    unfold loop
    by_cases h : num = 0
    · rw [dif_pos h]
      refine ⟨none, rfl, by simp, fun _ a ha => ?_⟩
      obtain ⟨i, hi⟩ := List.mem_iff_getElem?.1 ha
      rcases Nat.lt_or_ge i base with hb | hb
      · have := hlo i a hi hb; omega
      · have := hhi i a hi (by omega); omega
    · rw [dif_neg h]
      have hp : base + num / 2 < elems.length := by omega
      simp only [List.getElem?_eq_getElem hp]
      split
      · next h0 => exact ⟨_, rfl, fun i hi => ⟨elems[base + num / 2], by injection hi with hi; rw [← hi]; exact List.getElem?_eq_getElem hp, h0⟩, by simp⟩
      · next h0 =>
        split
        · next hneg =>
          refine ih ((num - 1) / 2) (by omega) (base + num / 2 + 1) (by omega) (fun i a hi hb => ?_) (fun i a hi hb => ?_)
          · exact (ho i (base + num / 2) a _ hi (List.getElem?_eq_getElem hp) (by omega)).1 hneg
          · exact hhi i a hi (by omega)
        · next hpos =>
          refine ih (num / 2) (by omega) base (by omega) hlo (fun i a hi hb => ?_)
          exact (ho (base + num / 2) i _ a (List.getElem?_eq_getElem hp) hi (by omega)).2 (by omega)

/-- **C09.** On an ordered array the search only ever looks at elements, and finds an element comparing equal exactly when
there is one. -/
theorem bsearch_correct {α : Type} (elems : List α) (find : α → Int) (ho : Ordered elems find) :
    ∃ r, bsearch elems find = some r ∧
      (∀ i, r = some i → ∃ a, elems[i]? = some a ∧ find a = 0) ∧
      (r = none ↔ ∀ a ∈ elems, find a ≠ 0) := by
  obtain ⟨r, h1, h2, h3⟩ := loop_correct elems find ho elems.length 0 (by omega) (by omega)
    (fun i a hi hb => by rw [List.getElem?_eq_none (by omega)] at hi; cases hi)
  refine ⟨r, h1, h2, h3, fun h => ?_⟩
  cases r with
  | none => rfl
  | some i =>
    obtain ⟨a, ha, h0⟩ := h2 i rfl
    exact absurd h0 (h a (List.mem_of_getElem? ha))

theorem loop_inside {α : Type} (elems : List α) (find : α → Int) (num base : Nat) (hin : base + num ≤ elems.length) :
    ∃ r, loop elems find base num = some r ∧ ∀ i, r = some i → ∃ a, elems[i]? = some a ∧ find a = 0 := by
  induction num using Nat.strongRecOn generalizing base with
  | _ num ih =>
    unfold loop
    by_cases h : num = 0
    · rw [dif_pos h]; exact ⟨none, rfl, by simp⟩
    · rw [dif_neg h]
      have hp : base + num / 2 < elems.length := by omega
      simp only [List.getElem?_eq_getElem hp]
      split
      · next h0 => exact ⟨_, rfl, fun i hi => ⟨elems[base + num / 2], by injection hi with hi; rw [← hi]; exact List.getElem?_eq_getElem hp, h0⟩⟩
      · split
        · exact ih ((num - 1) / 2) (by omega) (base + num / 2 + 1) (by omega)
        · exact ih (num / 2) (by omega) base (by omega)

/-- **C09, unordered arrays.** Whatever the callback answers, the search stays inside the array and any element it returns
compares equal. -/
theorem bsearch_memory_safe {α : Type} (elems : List α) (find : α → Int) :
    ∃ r, bsearch elems find = some r ∧ ∀ i, r = some i → ∃ a, elems[i]? = some a ∧ find a = 0 :=
  loop_inside elems find elems.length 0 (by omega)

example : bsearch [1, 3, 5, 7, 9, 11, 13] (fun x : Int => x - 9) = some (some 4) ∧
    bsearch [1, 3, 5, 7, 9, 11, 13] (fun x : Int => x - 8) = some none := by decide +kernel
example (key : Int) : Ordered [1, 3, 5, 5, 9] (fun x : Int => x - key) := by
  intro i j a b hi hj hij
  have h5 : ∀ (k : Nat) (c : Int), ([1, 3, 5, 5, 9] : List Int)[k]? = some c → (k, c) ∈ [(0, 1), (1, 3), (2, 5), (3, 5), (4, (9 : Int))] := by
    intro k c hk
    match k, hk with
    | 0, h | 1, h | 2, h | 3, h | 4, h => simp at h; simp [← h]
    | n + 5, h => simp at h
  have hi' := h5 i a hi
  have hj' := h5 j b hj
  simp at hi' hj'
  simp only; omega

end Bfdev.Bsearch

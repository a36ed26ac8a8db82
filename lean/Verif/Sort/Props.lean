import Verif.Sort.Lemmas
/-! Property theorems for the array sort (C10). -/
namespace Bfdev.Sort

/-- The comparator is a total preorder: it answers consistently when its arguments are exchanged, and "not greater" is
transitive. -/
structure IsPreorder {α : Type} (cmp : α → α → Int) : Prop where
  swap : ∀ x y, cmp x y ≤ 0 ↔ 0 ≤ cmp y x
  trans : ∀ x y z, cmp x y ≤ 0 → cmp y z ≤ 0 → cmp x z ≤ 0

theorem IsPreorder.ord {α : Type} {cmp : α → α → Int} (h : IsPreorder cmp) : Ord cmp :=
  ⟨fun x y hn => (h.swap x y).1 (by omega),
   fun x y z h1 h2 => (h.swap z x).1 (h.trans z y x ((h.swap z y).2 h2) ((h.swap y x).2 h1))⟩

theorem lsbit_small {c : Nat} (h0 : 0 < c) (hw : c < W64) (h : c % 2 ^ 32 ≠ 0) : (c &&& wneg c) < 2 ^ 32 := by
  obtain ⟨t, q, hc⟩ := exists_odd c h0
  rw [lsbit_eq hc hw h0]
  apply Nat.pow_lt_pow_right (by omega)
  apply Classical.byContradiction
  intro hn
  have e : 2 ^ t = 2 ^ 32 * 2 ^ (t - 32) := by rw [← Nat.pow_add]; congr 1; omega
  rw [hc, e, Nat.mul_assoc, Nat.mul_mod_right] at h
  exact h rfl

/-- **C10.** For every array and every total preorder the sort ends, touches only elements of the array, and leaves a
permutation in ascending order. (It answers `-EINVAL` and leaves the array alone when there are fewer than two elements.)
Missing from the full property: element sizes that are a multiple of `2^32` bytes, see `sort_violated`. -/
theorem sort_correct_partial {α : Type} (cmp : α → α → Int) (hcmp : IsPreorder cmp) (cells : Nat) (arr : List α)
    (hc : 0 < cells) (hsz : arr.length * cells < 2 ^ 63) (hl : cells % 2 ^ 32 ≠ 0) :
    ∃ out ok, sort cmp cells arr = some (out, ok) ∧ out.Perm arr ∧ out.Pairwise (fun x y => cmp x y ≤ 0) ∧
      (ok = true ↔ 2 ≤ arr.length) := by
  unfold sort
  have hdiv : arr.length >>> 1 = arr.length / 2 := by rw [Nat.shiftRight_eq_div_pow, Nat.pow_one]
  have hle : arr.length / 2 * cells ≤ arr.length * cells := Nat.mul_le_mul_right _ (by omega)
  have hw : w64 (arr.length >>> 1 * cells) = arr.length / 2 * cells := by
    rw [hdiv]; unfold w64; rw [Nat.mod_eq_of_lt (by simp only [W64]; omega)]
  have hw2 : w64 (arr.length * cells) = arr.length * cells := by
    unfold w64; rw [Nat.mod_eq_of_lt (by simp only [W64]; omega)]
  simp only [hw, hw2]
  by_cases h2 : 2 ≤ arr.length
  · have hpos : 0 < arr.length / 2 * cells := Nat.mul_pos (by omega) hc
    rw [if_neg (by omega)]
    have hcw : cells < W64 := by
      have : 1 * cells ≤ arr.length * cells := Nat.mul_le_mul_right _ (by omega)
      simp only [W64]; omega
    match arr, h2 with
    | d :: rest, h2 =>
      obtain ⟨b, h3, h4, h5⟩ := mainLoop_phase1 hcmp.ord hc (lsbit_small hc hcw hl) ((d :: rest).length / 2)
        (2 * (d :: rest).length) (d :: rest) d hsz (by omega) (by omega)
        (fun p c hp hcl hch => by omega) (by omega)
      rw [h3]
      refine ⟨b, true, rfl, h4, List.pairwise_iff_getElem.2 fun i j hi hj hij => ?_, by simpa using h2⟩
      have := h5 i j hij hj
      rw [hcmp.swap]
      simpa [List.getD_eq_getElem?_getD, hi, hj] using this
  · have : arr.length / 2 * cells = 0 := by rw [show arr.length / 2 = 0 by omega, Nat.zero_mul]
    rw [if_pos this]
    refine ⟨arr, false, rfl, .refl _, ?_, by simp; omega⟩
    match arr, h2 with
    | [], _ => exact .nil
    | [_], _ => exact List.pairwise_singleton _ _
    | _ :: _ :: _, h2 => simp at h2

/-- **C10 fails** for elements of `2^32` bytes: the lowest-bit mask is passed as `unsigned int` and becomes zero, so the
parent computation leaves the element grid and the sort touches memory that is not an element. -/
theorem sort_violated : sort (fun x y : Int => x - y) (2 ^ 32) [3, 1, 2, 0] = none ∧
    sort (fun x y : Int => x - y) 24 [3, 1, 2, 0] = some ([0, 1, 2, 3], true) := by decide +kernel

theorem sub_isPreorder : IsPreorder (fun x y : Int => x - y) := ⟨fun x y => by omega, fun x y z => by omega⟩
example : sort (fun x y : Int => x - y) 12 [5, 1, 4, 1, 3, 9, -2, 6] = some ([-2, 1, 1, 3, 4, 5, 6, 9], true) := by decide +kernel
example : ∃ out ok, sort (fun x y : Int => x - y) 12 [5, 1, 4, 1, 3, 9, -2] = some (out, ok) ∧ out.Perm [5, 1, 4, 1, 3, 9, -2] ∧
    out.Pairwise (fun x y => x - y ≤ 0) ∧ (ok = true ↔ 2 ≤ 7) :=
  sort_correct_partial _ sub_isPreorder 12 _ (by decide) (by decide) (by decide)

end Bfdev.Sort

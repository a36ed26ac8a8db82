import Verif.Levenshtein.Spec
/-!
The recursive form of the least cost, and the computation of it row by row.
-/
namespace Bfdev.Levenshtein

/-- The recurrence. -/
def dist (c : Costs) : List Byte → List Byte → Nat
  | [], ys => ys.length * c.a
  | x :: xs, [] => (x :: xs).length * c.d
  | x :: xs, y :: ys =>
    min (min (min (dist c xs ys + c.s * if x ≠ y then 1 else 0)
      (match xs, ys with
       | x' :: xs', y' :: ys' => if x = y' ∧ x' = y then dist c xs' ys' + c.w else dist c xs ys + c.s * if x ≠ y then 1 else 0
       | _, _ => dist c xs ys + c.s * if x ≠ y then 1 else 0))
      (dist c (x :: xs) ys + c.a)) (dist c xs (y :: ys) + c.d)
termination_by x y => x.length + y.length

theorem dist_cons (c : Costs) (x y : Byte) (xs ys : List Byte) : dist c (x :: xs) (y :: ys) =
    min (min (min (dist c xs ys + c.s * if x ≠ y then 1 else 0)
      (match xs, ys with
       | x' :: xs', y' :: ys' => if x = y' ∧ x' = y then dist c xs' ys' + c.w else dist c xs ys + c.s * if x ≠ y then 1 else 0
       | _, _ => dist c xs ys + c.s * if x ≠ y then 1 else 0))
      (dist c (x :: xs) ys + c.a)) (dist c xs (y :: ys) + c.d) := by
  rw [dist.eq_def]

theorem dist_nil_right (c : Costs) (xs : List Byte) : dist c xs [] = xs.length * c.d := by
  cases xs with
  | nil => rw [dist]; simp
  | cons x xs => rw [dist]

theorem dist_nil_left (c : Costs) (ys : List Byte) : dist c [] ys = ys.length * c.a := by rw [dist]

theorem dist_le_sub (c : Costs) (x y : Byte) (xs ys) : dist c (x :: xs) (y :: ys) ≤ dist c xs ys + c.s * if x ≠ y then 1 else 0 := by
  rw [dist_cons]; omega
theorem dist_le_add (c : Costs) (y : Byte) (xs ys) : dist c xs (y :: ys) ≤ dist c xs ys + c.a := by
  cases xs with
  | nil => rw [dist_nil_left, dist_nil_left, List.length_cons, Nat.succ_mul]; omega
  | cons x xs => rw [dist_cons]; omega
theorem dist_le_del (c : Costs) (x : Byte) (xs ys) : dist c (x :: xs) ys ≤ dist c xs ys + c.d := by
  cases ys with
  | nil => rw [dist_nil_right, dist_nil_right, List.length_cons, Nat.succ_mul]; omega
  | cons y ys => rw [dist_cons]; omega
theorem dist_le_swap (c : Costs) (x y : Byte) (xs ys) : dist c (x :: y :: xs) (y :: x :: ys) ≤ dist c xs ys + c.w := by
  rw [dist_cons]
  simp only [and_self, if_true]
  omega

/-- No script is cheaper than the recurrence. -/
theorem dist_le (c : Costs) {xs ys n} (h : Edit c xs ys n) : dist c xs ys ≤ n := by
  induction h with
  | done => rw [dist_nil_left]; simp
  | keep x _ ih => have := Nat.le_trans (dist_le_sub c x x _ _) (Nat.add_le_add_right ih _); simpa using this
  | substitute x y _ ih =>
    have := Nat.le_trans (dist_le_sub c x y _ _) (Nat.add_le_add_right ih _)
    refine Nat.le_trans this (Nat.add_le_add_left ?_ _)
    split
    · omega
    · omega
  | delete x _ ih => exact Nat.le_trans (dist_le_del c x _ _) (Nat.add_le_add_right ih _)
  | add y _ ih => exact Nat.le_trans (dist_le_add c y _ _) (Nat.add_le_add_right ih _)
  | swap x y _ ih => exact Nat.le_trans (dist_le_swap c x y _ _) (Nat.add_le_add_right ih _)

theorem edit_nil_left (c : Costs) (ys : List Byte) : Edit c [] ys (ys.length * c.a) := by
  induction ys with
  | nil => simpa using Edit.done
  | cons y ys ih => rw [List.length_cons, Nat.succ_mul]; exact ih.add y
theorem edit_nil_right (c : Costs) (xs : List Byte) : Edit c xs [] (xs.length * c.d) := by
  induction xs with
  | nil => simpa using Edit.done
  | cons y ys ih => rw [List.length_cons, Nat.succ_mul]; exact ih.delete y

theorem edit_sub (c : Costs) (x y : Byte) {xs ys n} (h : Edit c xs ys n) : Edit c (x :: xs) (y :: ys) (n + c.s * if x ≠ y then 1 else 0) := by
  by_cases e : x = y
  · subst e; simpa using h.keep x
  · simpa [e] using h.substitute x y

/-- The recurrence is the cost of a script. -/
theorem dist_edit (c : Costs) : ∀ k xs ys, List.length xs + List.length ys < k → Edit c xs ys (dist c xs ys) := by
  intro k
  induction k with
  | zero => intro _ _ h; omega
  | succ k ih =>
    intro xs ys h
    match xs, ys with
    | [], ys => rw [dist_nil_left]; exact edit_nil_left c ys
    | x :: xs, [] => rw [dist_nil_right]; exact edit_nil_right c _
    | x :: xs, y :: ys =>
      simp only [List.length_cons] at h
      have h1 := edit_sub c x y (ih xs ys (by omega))
      have h2 := (ih (x :: xs) ys (by simp only [List.length_cons]; omega)).add y
      have h3 := (ih xs (y :: ys) (by simp only [List.length_cons]; omega)).delete x
      have pick : ∀ {a b}, Edit c (x :: xs) (y :: ys) a → Edit c (x :: xs) (y :: ys) b → Edit c (x :: xs) (y :: ys) (min a b) := by
        intro a b ha hb
        rcases Nat.le_total a b with e | e
        · rw [Nat.min_eq_left e]; exact ha
        · rw [Nat.min_eq_right e]; exact hb
      rw [dist_cons]
      refine pick (pick (pick h1 ?_) h2) h3
      split
      · rename_i x' xs' y' ys'
        split
        · rename_i e
          obtain ⟨e1, e2⟩ := e
          subst e1 e2
          exact (ih xs' ys' (by simp only [List.length_cons] at h; omega)).swap x x'
        · exact h1
      · exact h1

theorem dist_least (c : Costs) (xs ys : List Byte) : Least c xs ys (dist c xs ys) :=
  ⟨dist_edit c _ xs ys (Nat.lt_succ_self _), fun _ h => dist_le c h⟩

theorem edit_append (c : Costs) {xs ys n xs' ys' m} (h : Edit c xs ys n) (h' : Edit c xs' ys' m) : Edit c (xs ++ xs') (ys ++ ys') (n + m) := by
  induction h with
  | done => simpa using h'
  | keep x _ ih => exact ih.keep x
  | substitute x y _ ih => rw [Nat.add_right_comm]; exact ih.substitute x y
  | delete x _ ih => rw [Nat.add_right_comm]; exact ih.delete x
  | add x _ ih => rw [Nat.add_right_comm]; exact ih.add x
  | swap x y _ ih => rw [Nat.add_right_comm]; exact ih.swap x y

/-- Scripts may be run from the right. -/
theorem edit_reverse (c : Costs) {xs ys n} (h : Edit c xs ys n) : Edit c xs.reverse ys.reverse n := by
  induction h with
  | done => exact Edit.done
  | keep x _ ih => simpa using edit_append c ih (Edit.done.keep x)
  | substitute x y _ ih => simpa using edit_append c ih (Edit.done.substitute x y)
  | delete x _ ih => simpa using edit_append c ih (Edit.done.delete x)
  | add x _ ih => simpa using edit_append c ih (Edit.done.add x)
  | swap x y _ ih => simpa using edit_append c ih (Edit.done.swap y x)

theorem dist_reverse (c : Costs) (xs ys : List Byte) : dist c xs.reverse ys.reverse = dist c xs ys := by
  apply Nat.le_antisymm
  · exact dist_le c (edit_reverse c (dist_least c xs ys).1)
  · have := edit_reverse c (dist_least c xs.reverse ys.reverse).1
    rw [List.reverse_reverse, List.reverse_reverse] at this
    exact dist_le c this

/-- Trivial scripts bound the costs. -/
theorem dist_bound (c : Costs) (xs ys : List Byte) : dist c xs ys ≤ xs.length * c.d + ys.length * c.a := by
  have h := edit_append c (edit_nil_right c xs) (edit_nil_left c ys)
  simp only [List.append_nil, List.nil_append] at h
  exact dist_le c h

/-- The table: least cost between the first `i` and the first `j` characters. -/
def D (c : Costs) (str1 str2 : List Byte) (i j : Nat) : Nat := dist c (str1.take i).reverse (str2.take j).reverse

theorem D_bound (c : Costs) (str1 str2 : List Byte) (i j : Nat) : D c str1 str2 i j ≤ i * c.d + j * c.a := by
  refine Nat.le_trans (dist_bound c _ _) ?_
  rw [List.length_reverse, List.length_reverse, List.length_take, List.length_take]
  exact Nat.add_le_add (Nat.mul_le_mul_right _ (Nat.min_le_left _ _)) (Nat.mul_le_mul_right _ (Nat.min_le_left _ _))

theorem D_zero_right (c : Costs) (str1 str2 : List Byte) (i : Nat) (h : i ≤ str1.length) : D c str1 str2 i 0 = i * c.d := by
  rw [D, List.take_zero, List.reverse_nil, dist_nil_right, List.length_reverse, List.length_take, Nat.min_eq_left h]

theorem D_zero_left (c : Costs) (str1 str2 : List Byte) (j : Nat) (h : j ≤ str2.length) : D c str1 str2 0 j = j * c.a := by
  rw [D, List.take_zero, List.reverse_nil, dist_nil_left, List.length_reverse, List.length_take, Nat.min_eq_left h]

theorem take_rev {l : List Byte} {i : Nat} {x : Byte} (h : l[i]? = some x) : (l.take (i + 1)).reverse = x :: (l.take i).reverse := by
  obtain ⟨h1, h2⟩ := List.getElem?_eq_some_iff.1 h
  rw [List.take_succ_eq_append_getElem h1, h2, List.reverse_append]
  rfl

/-- The least of the base cost and the swap, when it applies. -/
theorem D_succ (c : Costs) (str1 str2 : List Byte) (i j : Nat) (x y : Byte) (hx : str1[i]? = some x) (hy : str2[j]? = some y) :
    D c str1 str2 (i + 1) (j + 1) =
      min (min (if j ≠ 0 ∧ i ≠ 0 ∧ str1[i]? = str2[j - 1]? ∧ str1[i - 1]? = str2[j]? then
          min (D c str1 str2 i j + c.s * if x ≠ y then 1 else 0) (D c str1 str2 (i - 1) (j - 1) + c.w)
        else D c str1 str2 i j + c.s * if x ≠ y then 1 else 0)
        (D c str1 str2 (i + 1) j + c.a)) (D c str1 str2 i (j + 1) + c.d) := by
  have e : ∀ b : Nat, min b b = b := Nat.min_self
  rw [D, take_rev hx, take_rev hy, dist_cons]
  have e1 : dist c (x :: (str1.take i).reverse) (str2.take j).reverse = D c str1 str2 (i + 1) j := by rw [D, take_rev hx]
  have e2 : dist c (str1.take i).reverse (y :: (str2.take j).reverse) = D c str1 str2 i (j + 1) := by rw [D, take_rev hy]
  rw [e1, e2]
  congr 2
  have e3 : dist c (str1.take i).reverse (str2.take j).reverse = D c str1 str2 i j := rfl
  rw [e3]
  cases i with
  | zero =>
    simp
  | succ i =>
    cases j with
    | zero => simp
    | succ j =>
      have hi : i < str1.length := by have := (List.getElem?_eq_some_iff.1 hx).1; omega
      have hj : j < str2.length := by have := (List.getElem?_eq_some_iff.1 hy).1; omega
      have gx : str1[i]? = some str1[i] := List.getElem?_eq_getElem hi
      have gy : str2[j]? = some str2[j] := List.getElem?_eq_getElem hj
      rw [take_rev gx, take_rev gy]
      simp only [Nat.add_sub_cancel, hx, hy, gx, gy, Option.some.injEq, ne_eq, Nat.succ_ne_zero, not_false_eq_true, true_and]
      by_cases cnd : x = str2[j] ∧ str1[i] = y
      · rw [if_pos cnd, if_pos cnd]; rfl
      · rw [if_neg cnd, if_neg cnd, e]

theorem reward_eq (v x : Nat) : reward v x = min v x := by unfold reward; split <;> omega
theorem w32_eq {n : Nat} (h : n < 4294967296) : w32 n = n := Nat.mod_eq_of_lt h

end Bfdev.Levenshtein

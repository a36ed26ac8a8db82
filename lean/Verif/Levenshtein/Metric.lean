import Verif.Levenshtein.Props
/-!
C129: the edit distance as a distance between strings.
-/
namespace Bfdev.Levenshtein.Metric

/-- `n` is an answer of the function for the strings `x` and `y`, not a failure of the allocator, with costs that fit `unsigned int` and a
workspace whose stray cell (see C39) does no harm. -/
structure Answer (c : Costs) (x y : List Byte) (n : Nat) : Prop where
  fit : x.length * c.d + y.length * c.a + c.s + c.w + c.a + c.d < 4294967296
  call : ∃ m u, m.row1.length = x.length + 1 ∧ m.row2.length = x.length + 1 ∧ m.row3.length = x.length + 1 ∧ m.row2[x.length]? = some u ∧
    x.length * c.d ≤ u ∧ u + c.a < 4294967296 ∧ levenshtein c x y (some m) = some n

theorem Answer.least {c : Costs} {x y : List Byte} {n : Nat} (h : Answer c x y n) : Least c x y n := by
  obtain ⟨fit, m, u, h1, h2, h3, hu, hu1, hu2, e⟩ := h
  obtain ⟨k, e', hk⟩ := levenshtein_partial c x y m fit h1 h2 h3 u hu hu1 hu2
  rw [e, Option.some.injEq] at e'
  rw [e']; exact hk

theorem edit_self (c : Costs) : ∀ x : List Byte, Edit c x x 0
  | [] => Edit.done
  | x :: xs => Edit.keep x (edit_self c xs)

/-- C129: a string is at distance 0 from itself, and from no other string if no operation is free. -/
theorem zero_iff {c : Costs} {x y : List Byte} {n : Nat} (h : Answer c x y n) (hs : 0 < c.s) (hw : 0 < c.w) (ha : 0 < c.a) (hd : 0 < c.d) : n = 0 ↔ x = y := by
  constructor
  · intro h0
    have e := h.least.1
    rw [h0] at e
    clear h h0
    generalize hk : 0 = k at e
    induction e with
    | done => rfl
    | keep x _ ih => rw [ih hk]
    | substitute | delete | add | swap => omega
  · rintro rfl
    have := h.least.2 0 (edit_self c _)
    omega

theorem edit_symm {c : Costs} (hc : c.a = c.d) {x y : List Byte} {n : Nat} (h : Edit c x y n) : Edit c y x n := by
  induction h with
  | done => exact Edit.done
  | keep x _ ih => exact ih.keep x
  | substitute x y _ ih => exact ih.substitute y x
  | delete x _ ih => rw [← hc]; exact ih.add x
  | add y _ ih => rw [hc]; exact ih.delete y
  | swap x y _ ih => exact ih.swap y x

/-- C129: if additions and deletions cost the same, the distance is the same in both directions. -/
theorem symmetric {c : Costs} (hc : c.a = c.d) {x y : List Byte} {n m : Nat} (h : Answer c x y n) (h' : Answer c y x m) : n = m :=
  Nat.le_antisymm (h.least.2 m (edit_symm hc h'.least.1)) (h'.least.2 n (edit_symm hc h.least.1))

/-- Edit scripts without swaps. -/
inductive Plain (c : Costs) : List Byte → List Byte → Nat → Prop
  | done : Plain c [] [] 0
  | keep (x) {xs ys n} : Plain c xs ys n → Plain c (x :: xs) (x :: ys) n
  | substitute (x y) {xs ys n} : Plain c xs ys n → Plain c (x :: xs) (y :: ys) (n + c.s)
  | delete (x) {xs ys n} : Plain c xs ys n → Plain c (x :: xs) ys (n + c.d)
  | add (y) {xs ys n} : Plain c xs ys n → Plain c xs (y :: ys) (n + c.a)

theorem Plain.edit {c : Costs} {x y : List Byte} {n : Nat} (h : Plain c x y n) : Edit c x y n := by
  induction h with
  | done => exact Edit.done
  | keep x _ ih => exact ih.keep x
  | substitute x y _ ih => exact ih.substitute x y
  | delete x _ ih => exact ih.delete x
  | add y _ ih => exact ih.add y

theorem plain_of_edit {c : Costs} (hw : 2 * c.s ≤ c.w ∨ c.a + c.d ≤ c.w) {x y : List Byte} {n : Nat} (h : Edit c x y n) : ∃ k, k ≤ n ∧ Plain c x y k := by
  induction h with
  | done => exact ⟨0, Nat.le_refl 0, Plain.done⟩
  | keep x _ ih => obtain ⟨k, hk, h⟩ := ih; exact ⟨k, hk, h.keep x⟩
  | substitute x y _ ih => obtain ⟨k, hk, h⟩ := ih; exact ⟨_, by omega, h.substitute x y⟩
  | delete x _ ih => obtain ⟨k, hk, h⟩ := ih; exact ⟨_, by omega, h.delete x⟩
  | add y _ ih => obtain ⟨k, hk, h⟩ := ih; exact ⟨_, by omega, h.add y⟩
  | swap x y _ ih =>
    obtain ⟨k, hk, h⟩ := ih
    rcases hw with hw | hw
    · exact ⟨_, by omega, (h.substitute y x).substitute x y⟩
    · exact ⟨_, by omega, ((h.add x).keep y).delete x⟩

/-- Two scripts one after the other are no cheaper than some script. -/
theorem compose {c : Costs} {y z : List Byte} {m : Nat} (h' : Plain c y z m) : ∀ {x : List Byte} {n : Nat}, Plain c x y n → ∃ k, k ≤ n + m ∧ Plain c x z k := by
  induction h' with
  | done => intro x n h; exact ⟨n, Nat.le_refl _, h⟩
  | @add z ys zs m _ ih => intro x n h; obtain ⟨k, hk, e⟩ := ih h; exact ⟨_, by omega, e.add z⟩
  | @keep y ys zs m _ ih =>
    intro x n h
    generalize hl : y :: ys = l at h
    induction h with
    | done => exact absurd hl (by simp)
    | keep a h _ => cases hl; obtain ⟨k, hk, e⟩ := ih h; exact ⟨k, hk, e.keep _⟩
    | substitute a b h _ => cases hl; obtain ⟨k, hk, e⟩ := ih h; exact ⟨_, by omega, e.substitute a _⟩
    | delete a h i => obtain ⟨k, hk, e⟩ := i hl; exact ⟨_, by omega, e.delete a⟩
    | add b h _ => cases hl; obtain ⟨k, hk, e⟩ := ih h; exact ⟨_, by omega, e.add _⟩
  | @substitute y z ys zs m _ ih =>
    intro x n h
    generalize hl : y :: ys = l at h
    induction h with
    | done => exact absurd hl (by simp)
    | keep a h _ => cases hl; obtain ⟨k, hk, e⟩ := ih h; exact ⟨_, by omega, e.substitute _ z⟩
    | substitute a b h _ => cases hl; obtain ⟨k, hk, e⟩ := ih h; exact ⟨_, by omega, e.substitute a z⟩
    | delete a h i => obtain ⟨k, hk, e⟩ := i hl; exact ⟨_, by omega, e.delete a⟩
    | add b h _ => cases hl; obtain ⟨k, hk, e⟩ := ih h; exact ⟨_, by omega, e.add z⟩
  | @delete y ys zs m _ ih =>
    intro x n h
    generalize hl : y :: ys = l at h
    induction h with
    | done => exact absurd hl (by simp)
    | keep a h _ => cases hl; obtain ⟨k, hk, e⟩ := ih h; exact ⟨_, by omega, e.delete _⟩
    | substitute a b h _ => cases hl; obtain ⟨k, hk, e⟩ := ih h; exact ⟨_, by omega, e.delete a⟩
    | delete a h i => obtain ⟨k, hk, e⟩ := i hl; exact ⟨_, by omega, e.delete a⟩
    | add b h _ => cases hl; obtain ⟨k, hk, e⟩ := ih h; exact ⟨_, by omega, e⟩

/-- C129: the way over a third string is never shorter, provided a swap costs no less than two substitutions or no less than an addition
and a deletion. Missing: cheaper swaps, for which it is false. -/
theorem triangle_partial {c : Costs} (hw : 2 * c.s ≤ c.w ∨ c.a + c.d ≤ c.w) {x y z : List Byte} {n m k : Nat} (h : Answer c x y n) (h' : Answer c y z m)
    (hk : Answer c x z k) : k ≤ n + m := by
  obtain ⟨n', hn, p⟩ := plain_of_edit hw h.least.1
  obtain ⟨m', hm, q⟩ := plain_of_edit hw h'.least.1
  obtain ⟨j, hj, r⟩ := compose q p
  have := hk.least.2 j r.edit
  omega

/-- C129 is false for cheap swaps: with all costs 1, `ca` is at distance 1 from `ac`, which is at distance 1 from `abc`, and yet `ca` is at
distance 3 from `abc`. -/
theorem triangle_violated : Answer unit [99, 97] [97, 99] 1 ∧ Answer unit [97, 99] [97, 98, 99] 1 ∧ Answer unit [99, 97] [97, 98, 99] 3 := by
  refine ⟨⟨by decide, ⟨[0, 0, 0], [0, 0, 9], [0, 0, 0]⟩, 9, rfl, rfl, rfl, rfl, by decide, by decide, by decide +kernel⟩,
    ⟨by decide, ⟨[0, 0, 0], [0, 0, 9], [0, 0, 0]⟩, 9, rfl, rfl, rfl, rfl, by decide, by decide, by decide +kernel⟩,
    ⟨by decide, ⟨[0, 0, 0], [0, 0, 9], [0, 0, 0]⟩, 9, rfl, rfl, rfl, rfl, by decide, by decide, by decide +kernel⟩⟩

/-- C129: the distance is between the difference of the lengths and the cost of taking one string away and writing the other. -/
theorem lengths {c : Costs} {x y : List Byte} {n : Nat} (h : Answer c x y n) :
    (x.length - y.length) * c.d + (y.length - x.length) * c.a ≤ n ∧ n ≤ x.length * c.d + y.length * c.a := by
  constructor
  · have e := h.least.1
    have key : x.length * c.d ≤ n + y.length * c.d ∧ y.length * c.a ≤ n + x.length * c.a := by
      clear h
      induction e with
      | done => simp
      | keep x _ ih | substitute x y _ ih | delete x _ ih | add y _ ih | swap x y _ ih => simp only [List.length_cons, Nat.add_mul, Nat.one_mul]; omega
    rw [Nat.sub_mul, Nat.sub_mul]
    rcases Nat.le_total x.length y.length with hl | hl
    · have := Nat.mul_le_mul_right c.d hl
      omega
    · have := Nat.mul_le_mul_right c.a hl
      omega
  · have := h.least.2 _ (dist_edit c _ x y (Nat.lt_succ_self _))
    have := dist_bound c x y
    omega

/-- A case that meets the hypotheses of the triangle inequality: with swaps at cost 2, `ca` is at distance 2 from `ac`. -/
example : 2 * (⟨1, 2, 1, 1⟩ : Costs).s ≤ (⟨1, 2, 1, 1⟩ : Costs).w ∧ Answer ⟨1, 2, 1, 1⟩ [99, 97] [97, 99] 2 :=
  ⟨by decide, by decide, ⟨[0, 0, 0], [0, 0, 9], [0, 0, 0]⟩, 9, rfl, rfl, rfl, rfl, by decide, by decide, by decide +kernel⟩

end Bfdev.Levenshtein.Metric

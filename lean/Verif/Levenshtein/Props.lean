import Verif.Levenshtein.Lemmas
/-!
C39: the edit distance.
-/
namespace Bfdev.Levenshtein

/-- One cell of the table from its neighbours; `u` is what the code finds above it. -/
theorem cell (c : Costs) (str1 str2 : List Byte) (i j u : Nat) (hi : i < str1.length) (hj : j < str2.length)
    (fit : str1.length * c.d + str2.length * c.a + c.s + c.w + c.a + c.d < 4294967296)
    (row1 row2 row3 : List Nat) (h3 : row3.length = str1.length + 1)
    (r2 : row2[i]? = some (D c str1 str2 i j)) (r2' : row2[i + 1]? = some u)
    (hu : u = D c str1 str2 (i + 1) j ∨ (j = 0 ∧ (i + 1) * c.d ≤ u ∧ u + c.a < 4294967296))
    (r3 : row3[i]? = some (D c str1 str2 i (j + 1)))
    (r1 : j ≠ 0 → i ≠ 0 → row1[i - 1]? = some (D c str1 str2 (i - 1) (j - 1))) :
    inner c str1 str2 row1 row2 j i row3 = some (row3.set (i + 1) (D c str1 str2 (i + 1) (j + 1))) := by
  have hx : str1[i]? = some str1[i] := List.getElem?_eq_getElem hi
  have hy : str2[j]? = some str2[j] := List.getElem?_eq_getElem hj
  have hD := D_succ c str1 str2 i j _ _ hx hy
  have m1 : (i + 1) * c.d ≤ str1.length * c.d := Nat.mul_le_mul_right _ hi
  have m2 : (j + 1) * c.a ≤ str2.length * c.a := Nat.mul_le_mul_right _ hj
  rw [Nat.succ_mul] at m1 m2
  have b1 := D_bound c str1 str2 i j
  have b2 := D_bound c str1 str2 (i + 1) j
  have b3 := D_bound c str1 str2 i (j + 1)
  rw [Nat.succ_mul] at b2 b3
  have hs : (c.s * if str1[i] ≠ str2[j] then 1 else 0) ≤ c.s := by split <;> omega
  have hu2 : u + c.a < 4294967296 := by rcases hu with e | ⟨e1, e2, e3⟩ <;> omega
  unfold inner
  rw [hx, hy, r2, r2', r3]
  simp only [Option.bind_some]
  rw [w32_eq (show D c str1 str2 i j + (c.s * if str1[i] ≠ str2[j] then 1 else 0) < 4294967296 by omega)]
  generalize hb : D c str1 str2 i j + (c.s * if str1[i] ≠ str2[j] then 1 else 0) = base at hD ⊢
  have hsw : ∃ v, swapReward c str1 str2 row1 j i base = some v ∧
      v = (if j ≠ 0 ∧ i ≠ 0 ∧ str1[i]? = str2[j - 1]? ∧ str1[i - 1]? = str2[j]? then min base (D c str1 str2 (i - 1) (j - 1) + c.w) else base) := by
    unfold swapReward
    by_cases cnd : j ≠ 0 ∧ i ≠ 0 ∧ str1[i]? = str2[j - 1]? ∧ str1[i - 1]? = str2[j]?
    · rw [if_pos cnd, if_pos cnd, r1 cnd.1 cnd.2.1, Option.map_some]
      have b4 := D_bound c str1 str2 (i - 1) (j - 1)
      have m3 : (i - 1) * c.d ≤ i * c.d := Nat.mul_le_mul_right _ (by omega)
      have m4 : (j - 1) * c.a ≤ j * c.a := Nat.mul_le_mul_right _ (by omega)
      exact ⟨_, rfl, by rw [w32_eq (by omega), reward_eq]⟩
    · rw [if_neg cnd, if_neg cnd]; exact ⟨_, rfl, rfl⟩
  obtain ⟨v, hv1, hv2⟩ := hsw
  rw [← hv2] at hD
  rw [hv1, Option.bind_some, reward_eq, reward_eq, w32_eq hu2, w32_eq (by omega), setIdx_some _ (by omega)]
  congr 2
  rw [hD]
  rcases hu with e | ⟨e1, e2, e3⟩
  · rw [e]
  · subst e1
    rw [D_zero_right c str1 str2 (i + 1) (by omega)]
    rw [Nat.zero_mul] at b3
    rw [Nat.succ_mul] at e2 ⊢
    rw [Nat.zero_add]
    rw [Nat.zero_add] at b3
    generalize D c str1 str2 i 1 = z at *
    omega

/-- C39: whenever the cell of the workspace that is read without having been written happens to hold at least the cost of deleting the whole
first string (and does not overflow), the result is the least total cost over all edit scripts. What is missing: the other contents of that
cell, see `levenshtein_violated`, and costs beyond `unsigned int`. -/
theorem levenshtein_partial (c : Costs) (str1 str2 : List Byte) (m : Rows)
    (fit : str1.length * c.d + str2.length * c.a + c.s + c.w + c.a + c.d < 4294967296)
    (h1 : m.row1.length = str1.length + 1) (h2 : m.row2.length = str1.length + 1) (h3 : m.row3.length = str1.length + 1)
    (u : Nat) (hu : m.row2[str1.length]? = some u) (hu1 : str1.length * c.d ≤ u) (hu2 : u + c.a < 4294967296) :
    ∃ n, levenshtein c str1 str2 (some m) = some n ∧ Least c str1 str2 n := by
  refine ⟨dist c str1 str2, ?_, dist_least c str1 str2⟩
  unfold levenshtein
  by_cases c1 : str1.length = 0
  · rw [if_pos c1]
    rw [List.length_eq_zero_iff] at c1
    subst c1
    rw [dist_nil_left, w32_eq (by omega)]
  rw [if_neg c1]
  by_cases c2 : str2.length = 0
  · rw [if_pos c2]
    rw [List.length_eq_zero_iff] at c2
    subst c2
    rw [dist_nil_right, w32_eq (by omega)]
  rw [if_neg c2]
  simp only
  obtain ⟨row2, e1, e2, e3, e4⟩ := forN_inv (P := fun k (row : List Nat) => row.length = str1.length + 1 ∧ row[str1.length]? = some u ∧
      ∀ i, i < k → row[i]? = some (i * c.d)) str1.length (fun i row => setIdx row i (w32 (i * c.d))) m.row2
    ⟨h2, hu, fun i hi => by omega⟩ (by
      rintro k hk row ⟨p1, p2, p3⟩
      have hm : k * c.d ≤ str1.length * c.d := Nat.mul_le_mul_right _ (by omega)
      refine ⟨_, setIdx_some _ (by omega), by rw [List.length_set]; exact p1, by rw [List.getElem?_set_ne (by omega)]; exact p2, ?_⟩
      intro i hi
      rcases Nat.lt_or_ge i k with hlt | hge
      · rw [List.getElem?_set_ne (by omega)]; exact p3 i hlt
      · have : i = k := by omega
        subst this
        rw [List.getElem?_set_self (by omega), w32_eq (by omega)])
  rw [e1, Option.bind_some]
  obtain ⟨m', f1, f2, f3, f4, f5, f6⟩ := forN_inv (P := fun j (m : Rows) => m.row1.length = str1.length + 1 ∧ m.row2.length = str1.length + 1 ∧
      m.row3.length = str1.length + 1 ∧
      (∀ i, i ≤ str1.length → m.row2[i]? = some (D c str1 str2 i j) ∨ (j = 0 ∧ i = str1.length ∧ m.row2[i]? = some u)) ∧
      (j ≠ 0 → ∀ i, i < str1.length → m.row1[i]? = some (D c str1 str2 i (j - 1)))) str2.length (outer c str1 str2) ⟨m.row1, row2, m.row3⟩
    ⟨h1, e2, h3, fun i hi => by
      rcases Nat.lt_or_ge i str1.length with hlt | hge
      · exact Or.inl (by simp only; rw [e4 i hlt, D_zero_right c str1 str2 i hi])
      · have : i = str1.length := by omega
        exact Or.inr ⟨rfl, this, by simp only; rw [this]; exact e3⟩, fun h => absurd rfl h⟩ (by
      rintro j hj ⟨row1, row2, row3⟩ ⟨p1, p2, p3, p4, p5⟩
      simp only at p1 p2 p3 p4 p5
      have hm : (j + 1) * c.a ≤ str2.length * c.a := Nat.mul_le_mul_right _ hj
      obtain ⟨r3, q1, q2, q3⟩ := forN_inv (P := fun k (row : List Nat) => row.length = str1.length + 1 ∧
          ∀ i, i ≤ k → row[i]? = some (D c str1 str2 i (j + 1))) str1.length (inner c str1 str2 row1 row2 j) (row3.set 0 ((j + 1) * c.a))
        ⟨by rw [List.length_set]; exact p3, fun i hi => by
          have : i = 0 := by omega
          subst this
          rw [List.getElem?_set_self (by omega), D_zero_left c str1 str2 _ (by omega)]⟩ (by
          rintro k hk row ⟨s1, s2⟩
          have hk1 : row2[k]? = some (D c str1 str2 k j) := by
            rcases p4 k (by omega) with e | ⟨_, e, _⟩
            · exact e
            · omega
          have hk2 : ∃ v, row2[k + 1]? = some v ∧ (v = D c str1 str2 (k + 1) j ∨ (j = 0 ∧ (k + 1) * c.d ≤ v ∧ v + c.a < 4294967296)) := by
            rcases p4 (k + 1) (by omega) with e | ⟨e1, e2, e3⟩
            · exact ⟨_, e, Or.inl rfl⟩
            · exact ⟨u, e3, Or.inr ⟨e1, by rw [e2]; exact hu1, hu2⟩⟩
          obtain ⟨v, hv1, hv2⟩ := hk2
          refine ⟨_, cell c str1 str2 k j v hk hj fit row1 row2 row s1 hk1 hv1 hv2 (s2 k (Nat.le_refl _)) (fun g1 g2 => p5 g1 _ (by omega)), ?_, ?_⟩
          · rw [List.length_set]; exact s1
          · intro i hi
            rcases Nat.lt_or_ge i (k + 1) with hlt | hge
            · rw [List.getElem?_set_ne (by omega)]; exact s2 i (by omega)
            · have : i = k + 1 := by omega
              subst this
              rw [List.getElem?_set_self (by omega)])
      refine ⟨⟨row2, r3, row1⟩, ?_, p2, q2, p1, fun i hi => Or.inl (q3 i hi), fun _ i hi => ?_⟩
      · rw [outer]; simp only
        rw [w32_eq (by omega), setIdx_some _ (by omega), Option.bind_some, q1, Option.map_some]
      · simp only [Nat.add_sub_cancel]
        rcases p4 i (by omega) with e | ⟨_, e, _⟩
        · exact e
        · omega)
  rw [f1, Option.bind_some]
  rcases f5 str1.length (Nat.le_refl _) with e | ⟨e, _⟩
  · rw [e, D, List.take_length, List.take_length, dist_reverse]
  · omega

/-- C39, the cases without workspace: an empty string, and a refused allocation (which is reported as the largest number). -/
theorem levenshtein_empty (c : Costs) (str : List Byte) (m : Option Rows)
    (fit : str.length * c.d < 4294967296) (fit' : str.length * c.a < 4294967296) :
    (∃ n, levenshtein c [] str m = some n ∧ Least c [] str n) ∧ (∃ n, levenshtein c str [] m = some n ∧ Least c str [] n) := by
  refine ⟨⟨dist c [] str, ?_, dist_least c _ _⟩, ⟨dist c str [], ?_, dist_least c _ _⟩⟩
  · rw [dist_nil_left]
    simp [levenshtein, w32_eq fit']
  · rw [dist_nil_right]
    unfold levenshtein
    by_cases c1 : str.length = 0
    · rw [if_pos c1, c1]; simp [w32]
    · rw [if_neg c1, if_pos (show ([] : List Byte).length = 0 from rfl), w32_eq fit]

def unit : Costs := ⟨1, 1, 1, 1⟩

/-- C39 fails: the last cell of the first row is never written before it is read, and the result depends on what the allocator left there.
Turning `abc` into `x` costs 3; with a zeroed workspace the answer is 1. -/
theorem levenshtein_violated :
    levenshtein unit [97, 98, 99] [120] (some ⟨[0, 0, 0, 0], [0, 0, 0, 0], [0, 0, 0, 0]⟩) = some 1 ∧ Least unit [97, 98, 99] [120] 3 := by
  refine ⟨by decide +kernel, ?_⟩
  have h := dist_least unit [97, 98, 99] [120]
  have e : dist unit [97, 98, 99] [120] = 3 := by
    simp [dist_cons, dist_nil_left, dist_nil_right, unit]
  rwa [e] at h

/-- C39 fails: whatever the strings and the costs, a second string of one character is never reported farther than the stray cell plus one
addition. -/
theorem levenshtein_stray (c : Costs) (x : Byte) (xs : List Byte) (y : Byte) (m : Rows) (u n : Nat)
    (hu : m.row2[xs.length + 1]? = some u) (h : levenshtein c (x :: xs) [y] (some m) = some n) : n ≤ w32 (u + c.a) := by
  unfold levenshtein at h
  rw [if_neg (by simp), if_neg (by simp)] at h
  simp only [Option.bind_eq_some_iff] at h
  obtain ⟨row2, e1, m', e2, e3⟩ := h
  have hrow : row2[xs.length + 1]? = some u := by
    have : ∀ k r, k ≤ xs.length + 1 → forN k (fun i row => setIdx row i (w32 (i * c.d))) m.row2 = some r → r[xs.length + 1]? = some u := by
      intro k
      induction k with
      | zero => intro r _ h; cases h; exact hu
      | succ k ih =>
        intro r hk h
        rw [forN, Option.bind_eq_some_iff] at h
        obtain ⟨t, h1, h2⟩ := h
        unfold setIdx at h2
        split at h2
        · cases h2; rw [List.getElem?_set_ne (by omega)]; exact ih t (by omega) h1
        · exact nomatch h2
    exact this _ row2 (by simp) e1
  simp only [List.length_cons, List.length_nil, forN, Option.bind_some, outer, Option.bind_eq_some_iff, Option.map_eq_some_iff] at e2
  obtain ⟨r3, g1, r4, ⟨t, g2, g3⟩, g4⟩ := e2
  subst g4
  simp only [List.length_cons] at e3
  simp only [inner, Option.bind_eq_some_iff, hrow, Option.some.injEq] at g3
  obtain ⟨_, _, _, _, _, _, v, _, _, hu', l, _, g5⟩ := g3
  unfold setIdx at g5
  split at g5
  · rename_i hlt
    cases g5
    rw [List.getElem?_set_self hlt] at e3
    cases e3
    rw [reward_eq, reward_eq, ← hu']
    omega
  · exact nomatch g5

/-! A non-trivial case with a good stray cell: `kitten`/`ktisten` needs a swap and an addition. -/
example : levenshtein unit [107, 105, 116, 116] [107, 116, 105, 115, 116] (some ⟨[0, 0, 0, 0, 0], [0, 0, 0, 0, 77], [0, 0, 0, 0, 0]⟩) = some 2 := by
  decide +kernel
example : Edit unit [107, 105, 116, 116] [107, 116, 105, 115, 116] 2 := ((((Edit.done.keep 116).add 115).swap 105 116).keep 107)

end Bfdev.Levenshtein

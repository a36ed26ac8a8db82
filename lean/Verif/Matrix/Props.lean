import Verif.Matrix.Spec
/-!
C38: matrix arithmetic.
-/
namespace Bfdev.Matrix

theorem flat_lt {r c i j : Nat} (hi : i < r) (hj : j < c) : i * c + j < r * c := by
  have : (i + 1) * c ≤ r * c := Nat.mul_le_mul_right _ hi
  rw [Nat.succ_mul] at this
  omega

theorem flat_inj {c i j i' j' : Nat} (hj : j < c) (hj' : j' < c) (h : i * c + j = i' * c + j') : i = i' ∧ j = j' := by
  have h1 : (i * c + j) / c = i := by
    rw [Nat.mul_comm, Nat.mul_add_div (by omega), Nat.div_eq_of_lt hj, Nat.add_zero]
  have h2 : (i' * c + j') / c = i' := by
    rw [Nat.mul_comm, Nat.mul_add_div (by omega), Nat.div_eq_of_lt hj', Nat.add_zero]
  rw [h] at h1
  have : i = i' := by omega
  subst this
  exact ⟨rfl, by omega⟩

theorem flat_surj {r c k : Nat} (h : k < r * c) : ∃ i j, i < r ∧ j < c ∧ k = i * c + j := by
  have hc : 0 < c := by
    rcases Nat.eq_zero_or_pos c with e | e
    · rw [e] at h; omega
    · exact e
  exact ⟨k / c, k % c, Nat.div_lt_of_lt_mul (by rwa [Nat.mul_comm]), Nat.mod_lt _ hc, by rw [Nat.mul_comm]; exact (Nat.div_add_mod k c).symm⟩

theorem resize_length {l : List Word} {n : Nat} {mem} {l'} (h : resize l n mem = some l') : l'.length = n := by
  unfold resize at h
  split at h
  · simp only [Option.some.injEq] at h; subst h; rw [List.length_take]; omega
  · cases mem with
    | none => exact nomatch h
    | some junk =>
      simp only [Option.map_some, Option.some.injEq] at h
      subst h
      rw [List.length_append, List.length_map, List.length_range]
      omega

theorem resize_same {l : List Word} {n : Nat} {mem} (h : l.length = n) : resize l n mem = some l := by
  unfold resize
  rw [if_pos (by omega), List.take_of_length_le (by omega)]

theorem resize_grant (l : List Word) (n : Nat) (junk) : ∃ l', resize l n (some junk) = some l' := by
  unfold resize
  split
  · exact ⟨_, rfl⟩
  · exact ⟨_, rfl⟩

theorem put_same (st : Store) (i : Nat) (m : Mat) : put st i m i = m := if_pos rfl
theorem put_other {st : Store} {i j : Nat} (m : Mat) (h : j ≠ i) : put st i m j = st j := if_neg h

/-- The pointwise loop, with the destination possibly an operand. -/
theorem add_loop (op : Word → Word → Word) (st : Store) (dest a b n : Nat) (A B : List Word)
    (hA : (st a).data = A) (hB : (st b).data = B) (hAl : A.length = n) (hBl : B.length = n) (hD : (st dest).data.length = n) :
    ∃ st', forN n (addBody op dest a b) st = some st' ∧ (∀ i, i ≠ dest → st' i = st i) ∧ (st' dest).row = (st dest).row ∧
      (st' dest).col = (st dest).col ∧ (st' dest).data.length = n ∧
      ∀ (i : Nat) x y, A[i]? = some x → B[i]? = some y → (st' dest).data[i]? = some (op x y) := by
  obtain ⟨st', h1, h2, h3, h4, h5, h6⟩ := forN_inv (P := fun k (st' : Store) => (∀ i, i ≠ dest → st' i = st i) ∧ (st' dest).row = (st dest).row ∧
      (st' dest).col = (st dest).col ∧ (st' dest).data.length = n ∧
      (∀ i : Nat, k ≤ i → (st' dest).data[i]? = (st dest).data[i]?) ∧
      (∀ (i : Nat) x y, i < k → A[i]? = some x → B[i]? = some y → (st' dest).data[i]? = some (op x y))) n (addBody op dest a b) st
    ⟨fun _ _ => rfl, rfl, rfl, hD, fun _ _ => rfl, fun i _ _ hi => by omega⟩ (by
      rintro k hk t ⟨p1, p2, p3, p4, p5, p6⟩
      have ra : (t a).data[k]? = A[k]? := by
        rcases Classical.em (a = dest) with e | e
        · subst e; rw [p5 k (Nat.le_refl _), hA]
        · rw [p1 a e, hA]
      have rb : (t b).data[k]? = B[k]? := by
        rcases Classical.em (b = dest) with e | e
        · subst e; rw [p5 k (Nat.le_refl _), hB]
        · rw [p1 b e, hB]
      have hx : A[k]? = some A[k] := List.getElem?_eq_getElem (by omega)
      have hy : B[k]? = some B[k] := List.getElem?_eq_getElem (by omega)
      refine ⟨_, by rw [addBody, ra, rb, hx, hy, Option.bind_some, Option.bind_some, setIdx_some _ (by omega), Option.map_some], ?_, ?_, ?_, ?_, ?_, ?_⟩
      · intro i hi; rw [put_other _ hi, p1 i hi]
      · rw [put_same]; exact p2
      · rw [put_same]; exact p3
      · rw [put_same]; simp [p4]
      · intro i hi; rw [put_same]; simp only; rw [List.getElem?_set_ne (by omega)]; exact p5 i (by omega)
      · intro i x y hi hx' hy'
        rw [put_same]
        simp only
        rcases Nat.lt_or_ge i k with hlt | hge
        · rw [List.getElem?_set_ne (by omega)]; exact p6 i x y hlt hx' hy'
        · have : i = k := by omega
          subst this
          rw [List.getElem?_set_self (by omega)]
          rw [hx] at hx'; rw [hy] at hy'
          cases hx'; cases hy'; rfl)
  exact ⟨st', h1, h2, h3, h4, h5, fun i x y hx hy =>
    h6.2 i x y (by have := (List.getElem?_eq_some_iff.1 hx).1; omega) hx hy⟩

theorem mulu_eq {r c : Nat} (h : r * c < 4294967296) : mulu r c = r * c := Nat.mod_eq_of_lt h

theorem addsub_correct (op : Word → Word → Word) (st : Store) (dest a b r c : Nat) (f g : Nat → Nat → Word) (junk)
    (ha : Is (st a) r c f) (hb : Is (st b) r c g) (hsz : r * c < 4294967296) :
    ∃ st', addsub op st dest a b (some junk) = some (0, st') ∧ Is (st' dest) r c (fun i j => op (f i j) (g i j)) ∧
      ∀ i, i ≠ dest → st' i = st i := by
  obtain ⟨a1, a2, a3, a4⟩ := ha
  obtain ⟨b1, b2, b3, b4⟩ := hb
  obtain ⟨l, hl⟩ := resize_grant (st dest).data (r * c) junk
  have hlen := resize_length hl
  have hval : ∀ x, (st x).data.length = r * c → (put st dest ⟨r, c, l⟩ x).data = (st x).data := by
    intro x hx
    rcases Classical.em (x = dest) with e | e
    · subst e; rw [resize_same hx] at hl; cases hl; rw [put_same]
    · rw [put_other _ e]
  obtain ⟨st', e1, e2, e3, e4, e5, e6⟩ := add_loop op (put st dest ⟨r, c, l⟩) dest a b (r * c) (st a).data (st b).data (hval a a3) (hval b b3)
    a3 b3 (by rw [put_same]; exact hlen)
  refine ⟨st', ?_, ⟨?_, ?_, e5, fun i j hi hj => e6 _ _ _ (a4 i j hi hj) (b4 i j hi hj)⟩, fun i hi => by rw [e2 i hi, put_other _ hi]⟩
  · unfold addsub
    simp only [a1, a2, b1, b2, ne_eq, not_true, or_self, if_false, mulu_eq hsz, hl, e1, Option.map_some]
  · rw [e3, put_same]
  · rw [e4, put_same]

/-- C38: addition is the entrywise sum, whatever the dimensions and entries, with the destination fresh or one of the operands (or both);
nothing else is modified. -/
theorem add_correct (st : Store) (dest a b r c : Nat) (f g : Nat → Nat → Word) (junk)
    (ha : Is (st a) r c f) (hb : Is (st b) r c g) (hsz : r * c < 4294967296) :
    ∃ st', add st dest a b (some junk) = some (0, st') ∧ Is (st' dest) r c (fun i j => f i j + g i j) ∧ ∀ i, i ≠ dest → st' i = st i :=
  addsub_correct _ st dest a b r c f g junk ha hb hsz

/-- C38: subtraction is the entrywise difference. -/
theorem sub_correct (st : Store) (dest a b r c : Nat) (f g : Nat → Nat → Word) (junk)
    (ha : Is (st a) r c f) (hb : Is (st b) r c g) (hsz : r * c < 4294967296) :
    ∃ st', sub st dest a b (some junk) = some (0, st') ∧ Is (st' dest) r c (fun i j => f i j - g i j) ∧ ∀ i, i ≠ dest → st' i = st i :=
  addsub_correct _ st dest a b r c f g junk ha hb hsz

/-- C38: operands of different dimensions are rejected without modification. -/
theorem mismatch_rejected (st : Store) (dest a b : Nat) (mem mem2) :
    ((st a).row ≠ (st b).row ∨ (st a).col ≠ (st b).col →
      add st dest a b mem = some (EINVAL, st) ∧ sub st dest a b mem = some (EINVAL, st)) ∧
    ((st a).col ≠ (st b).row → mul st dest a b mem mem2 = some (EINVAL, st)) := by
  refine ⟨fun h => ⟨?_, ?_⟩, fun h => ?_⟩
  · unfold add addsub; simp only [h, if_true]
  · unfold sub addsub; simp only [h, if_true]
  · unfold mul; simp only [h, ne_eq, not_false_eq_true, if_true]

theorem addsub_error (op) (st st' : Store) (dest a b : Nat) (mem) (e : Int) (h : addsub op st dest a b mem = some (e, st')) (he : e ≠ 0) :
    st' = st := by
  unfold addsub at h
  simp only at h
  split at h
  · simp only [Option.some.injEq, Prod.mk.injEq] at h; exact h.2.symm
  · split at h
    · simp only [Option.some.injEq, Prod.mk.injEq] at h; exact h.2.symm
    · rw [Option.map_eq_some_iff] at h
      obtain ⟨_, _, h⟩ := h
      cases h
      exact absurd rfl he

theorem setFrom_error (st st' : Store) (dest : Nat) (src) (mem) (e : Int) (h : setFrom st dest src mem = some (e, st')) (he : e ≠ 0) :
    st' = st := by
  unfold setFrom at h
  simp only at h
  split at h
  · simp only [Option.some.injEq, Prod.mk.injEq] at h; exact h.2.symm
  · rw [Option.bind_eq_some_iff] at h
    obtain ⟨_, _, h⟩ := h
    rw [Option.map_eq_some_iff] at h
    obtain ⟨_, _, h⟩ := h
    cases h
    exact absurd rfl he

/-- C38: whenever an operation reports an error, whichever the reason, all matrices are as they were. -/
theorem errors_harmless (st st' : Store) (dest a b : Nat) (mem mem2) (e : Int) (he : e ≠ 0)
    (h : add st dest a b mem = some (e, st') ∨ sub st dest a b mem = some (e, st') ∨ mul st dest a b mem mem2 = some (e, st') ∨
      set st dest a mem = some (e, st')) : st' = st := by
  rcases h with h | h | h | h
  · exact addsub_error _ st st' dest a b mem e h he
  · exact addsub_error _ st st' dest a b mem e h he
  · unfold mul at h
    simp only at h
    split at h
    · simp only [Option.some.injEq, Prod.mk.injEq] at h; exact h.2.symm
    · split at h
      · split at h
        · simp only [Option.some.injEq, Prod.mk.injEq] at h; exact h.2.symm
        · rw [Option.bind_eq_some_iff] at h
          obtain ⟨_, _, h⟩ := h
          exact setFrom_error st st' dest _ mem2 e h he
      · split at h
        · simp only [Option.some.injEq, Prod.mk.injEq] at h; exact h.2.symm
        · rw [Option.map_eq_some_iff] at h
          obtain ⟨_, _, h⟩ := h
          cases h
          exact absurd rfl he
  · exact setFrom_error st st' dest _ mem e h he

theorem sum_succ (n : Nat) (f : Nat → Word) : sum (n + 1) f = sum n f + f n := rfl

/-- The loops of the multiplication compute the sums of products. -/
theorem mul_loops (A B : List Word) (R K C : Nat) (d : List Word) (f g : Nat → Nat → Word)
    (hA : ∀ i k, i < R → k < K → A[i * K + k]? = some (f i k)) (hB : ∀ k j, k < K → j < C → B[k * C + j]? = some (g k j))
    (hd : d.length = R * C) : ∃ d', mulLoops A B R K C d = some d' ∧ d'.length = R * C ∧
      ∀ i j, i < R → j < C → d'[i * C + j]? = some (sum K fun k => f i k * g k j) := by
  let S := fun (n i j : Nat) => sum n fun k => f i k * g k j
  obtain ⟨d', e1, e2, e3⟩ := forN_inv (P := fun row (d : List Word) => d.length = R * C ∧
      ∀ i j, i < R → j < C → d[i * C + j]? = some (S (if i < row then K else 0) i j)) R
      (fun row => forN K (mulRow A B K C row)) (List.replicate d.length 0)
    ⟨by rw [List.length_replicate, hd], fun i j hi hj => by
      rw [List.getElem?_replicate, if_pos (by rw [hd]; exact flat_lt hi hj), if_neg (by omega)]; rfl⟩ (by
      rintro row hrow d ⟨p1, p2⟩
      obtain ⟨d', q1, q2, q3⟩ := forN_inv (P := fun col (d : List Word) => d.length = R * C ∧
          ∀ i j, i < R → j < C → d[i * C + j]? = some (S (if i < row then K else if i = row then col else 0) i j)) K
          (mulRow A B K C row) d
        ⟨p1, fun i j hi hj => by
          rw [p2 i j hi hj]
          by_cases c1 : i < row
          · rw [if_pos c1, if_pos c1]
          · rw [if_neg c1, if_neg c1]
            by_cases c2 : i = row
            · rw [if_pos c2]
            · rw [if_neg c2]⟩ (by
          rintro col hcol d ⟨p1, p2⟩
          obtain ⟨d', q1, q2, q3⟩ := forN_inv (P := fun cnt (d : List Word) => d.length = R * C ∧
              ∀ i j, i < R → j < C → d[i * C + j]? = some (S (if i < row then K else if i = row then (if j < cnt then col + 1 else col) else 0) i j)) C
              (mulBody B C row col (f row col)) d
            ⟨p1, fun i j hi hj => by
              rw [p2 i j hi hj, if_neg (Nat.not_lt_zero j)]⟩ (by
              rintro cnt hcnt d ⟨p1, p2⟩
              have hx := p2 row cnt hrow hcnt
              rw [if_neg (Nat.lt_irrefl _), if_pos rfl, if_neg (Nat.lt_irrefl _)] at hx
              refine ⟨_, by rw [mulBody, hB col cnt hcol hcnt, Option.bind_some, hx, Option.bind_some,
                setIdx_some _ (by rw [p1]; exact flat_lt hrow hcnt)], ?_, ?_⟩
              · rw [List.length_set]; exact p1
              · intro i j hi hj
                by_cases c : i = row ∧ j = cnt
                · obtain ⟨c1, c2⟩ := c
                  subst c1 c2
                  rw [List.getElem?_set_self (by rw [p1]; exact flat_lt hi hj), if_neg (Nat.lt_irrefl _), if_pos rfl,
                    if_pos (Nat.lt_succ_self _)]
                  rfl
                · rw [List.getElem?_set_ne (fun e => c (by
                    have := flat_inj hcnt hj e; exact ⟨this.1.symm, this.2.symm⟩)), p2 i j hi hj]
                  by_cases c1 : i < row
                  · rw [if_pos c1, if_pos c1]
                  · rw [if_neg c1, if_neg c1]
                    by_cases c2 : i = row
                    · have c3 : j ≠ cnt := fun e => c ⟨c2, e⟩
                      rw [if_pos c2, if_pos c2]
                      by_cases c4 : j < cnt
                      · rw [if_pos c4, if_pos (by omega)]
                      · rw [if_neg c4, if_neg (by omega)]
                    · rw [if_neg c2, if_neg c2])
          refine ⟨d', by rw [mulRow, hA row col hrow hcol, Option.bind_some, q1], q2, ?_⟩
          intro i j hi hj
          rw [q3 i j hi hj, if_pos hj])
      refine ⟨d', q1, q2, ?_⟩
      intro i j hi hj
      rw [q3 i j hi hj]
      by_cases c1 : i < row
      · rw [if_pos c1, if_pos (by omega)]
      · rw [if_neg c1]
        by_cases c2 : i = row
        · rw [if_pos c2, if_pos (by omega)]
        · rw [if_neg c2, if_neg (by omega)])
  refine ⟨d', e1, e2, fun i j hi hj => ?_⟩
  rw [e3 i j hi hj, if_pos hi]

theorem setFrom_correct (st : Store) (dest : Nat) (src : Mat) (r c : Nat) (f : Nat → Nat → Word) (junk) (h : Is src r c f)
    (hsz : r * c < 4294967296) :
    ∃ st', setFrom st dest src (some junk) = some (0, st') ∧ Is (st' dest) r c f ∧ ∀ i, i ≠ dest → st' i = st i := by
  obtain ⟨h1, h2, h3, h4⟩ := h
  obtain ⟨l, hl⟩ := resize_grant (st dest).data (r * c) junk
  have hlen := resize_length hl
  have e : rd src.data 0 (r * c) = some src.data := by
    rw [rd_eq_some (by omega), List.drop_zero, List.take_of_length_le (by omega)]
  have e2 : wr l 0 src.data = some src.data := by
    rw [wr_eq_some (by omega), List.take_zero, List.nil_append, List.drop_of_length_le (by omega), List.append_nil]
  refine ⟨put st dest ⟨r, c, src.data⟩, ?_, ?_, fun i hi => put_other _ hi⟩
  · unfold setFrom
    simp only [h1, h2, mulu_eq hsz, hl, e, Option.bind_some, e2, Option.map_some]
  · rw [put_same]; exact ⟨rfl, rfl, h3, h4⟩

/-- C38: copying and importing give the same matrix. -/
theorem set_correct (st : Store) (dest src r c : Nat) (f : Nat → Nat → Word) (junk) (h : Is (st src) r c f) (hsz : r * c < 4294967296) :
    ∃ st', set st dest src (some junk) = some (0, st') ∧ Is (st' dest) r c f ∧ ∀ i, i ≠ dest → st' i = st i :=
  setFrom_correct st dest _ r c f junk h hsz

/-- C38: importing a buffer in row-major order. -/
theorem import_correct (st : Store) (dest r c : Nat) (buf : List Word) (junk) (hl : buf.length = r * c) (hsz : r * c < 4294967296) :
    ∃ st', import' st dest buf r c (some junk) = some (0, st') ∧ Is (st' dest) r c (fun i j => buf.getD (i * c + j) 0) ∧
      ∀ i, i ≠ dest → st' i = st i := by
  refine setFrom_correct st dest ⟨r, c, buf⟩ r c _ junk ⟨rfl, rfl, hl, fun i j hi hj => ?_⟩ hsz
  have := flat_lt hi hj
  simp only
  rw [List.getD_eq_getElem?_getD, List.getElem?_eq_getElem (by omega), Option.getD_some]

/-- C38: multiplication gives the sums of products, whatever the dimensions and entries, with the destination fresh or one of the
operands. -/
theorem mul_correct (st : Store) (dest a b r k c : Nat) (f g : Nat → Nat → Word) (junk junk2)
    (ha : Is (st a) r k f) (hb : Is (st b) k c g) (hsz : r * c < 4294967296) :
    ∃ st', mul st dest a b (some junk) (some junk2) = some (0, st') ∧
      Is (st' dest) r c (fun i j => sum k fun l => f i l * g l j) ∧ ∀ i, i ≠ dest → st' i = st i := by
  obtain ⟨a1, a2, a3, a4⟩ := ha
  obtain ⟨b1, b2, b3, b4⟩ := hb
  unfold mul
  simp only [a1, a2, b1, b2, ne_eq, not_true, if_false, mulu_eq hsz]
  by_cases c1 : dest = a ∨ dest = b
  · rw [if_pos c1]
    obtain ⟨l, hl⟩ := resize_grant [] (r * c) junk
    obtain ⟨d', e1, e2, e3⟩ := mul_loops (st a).data (st b).data r k c l f g a4 b4 (resize_length hl)
    simp only [hl, e1, Option.bind_some]
    exact setFrom_correct st dest ⟨r, c, d'⟩ r c _ junk2 ⟨rfl, rfl, e2, e3⟩ hsz
  · rw [if_neg c1]
    obtain ⟨l, hl⟩ := resize_grant (st dest).data (r * c) junk
    obtain ⟨d', e1, e2, e3⟩ := mul_loops (st a).data (st b).data r k c l f g a4 b4 (resize_length hl)
    simp only [hl, e1, Option.map_some]
    refine ⟨_, rfl, ?_, fun i hi => put_other _ hi⟩
    rw [put_same]
    exact ⟨rfl, rfl, e2, e3⟩

/-- When the number of entries of the product, counted in `unsigned int`, wraps to zero, the entries are stored outside the array. -/
theorem mul_violated (st : Store) (dest a b r k c : Nat) (junk junk2) (f g : Nat → Nat → Word)
    (ha : Is (st a) (r + 1) (k + 1) f) (hb : Is (st b) (k + 1) (c + 1) g) (hm : (r + 1) * (c + 1) % 4294967296 = 0) :
    mul st dest a b (some junk) (some junk2) = none := by
  have hz : ∀ A B : List Word, mulLoops A B (r + 1) (k + 1) (c + 1) [] = none := by
    intro A B
    have h1 : ∀ v n, forN (n + 1) (mulBody B (c + 1) 0 0 v) [] = none := by
      intro v n
      induction n with
      | zero => cases hx : B[0]? <;> simp [forN, mulBody, hx]
      | succ n ih => rw [forN, ih]; rfl
    have h2 : ∀ n, forN (n + 1) (mulRow A B (k + 1) (c + 1) 0) [] = none := by
      intro n
      induction n with
      | zero =>
        rw [forN, forN, Option.bind_some, mulRow]
        cases A[0 * (k + 1) + 0]? with
        | none => rfl
        | some v => exact h1 v c
      | succ n ih => rw [forN, ih]; rfl
    have h3 : ∀ n, forN (n + 1) (fun row => forN (k + 1) (mulRow A B (k + 1) (c + 1) row)) [] = none := by
      intro n
      induction n with
      | zero => rw [forN, forN, Option.bind_some]; exact h2 k
      | succ n ih => rw [forN, ih]; rfl
    exact h3 r
  have hm : mulu (r + 1) (c + 1) = 0 := hm
  unfold mul
  simp only [ha.1, ha.2.1, hb.1, hb.2.1, ne_eq, not_true, if_false, hm, resize, Nat.zero_le, if_true, List.take_zero, hz]
  simp
example : (65535 + 1) * (65535 + 1) % 4294967296 = 0 := by decide

/-- C38 fails for transposition: the copy goes the wrong way. Into another matrix of any contents, the destination gets the right
dimensions but keeps its old entries (or the uninitialised ones), and the source is overwritten with them. -/
theorem trans_violated (st : Store) (dest src r c : Nat) (f : Nat → Nat → Word) (mem) (l : List Word) (hne : dest ≠ src)
    (h : Is (st src) r c f) (hsz : c * r < 4294967296) (hl : resize (st dest).data (c * r) mem = some l) :
    ∃ st', trans st dest src mem = some (0, st') ∧ st' dest = ⟨c, r, l⟩ ∧
      ∀ i j, i < c → j < r → (st' src).data[i * r + j]? = l[j * c + i]? := by
  obtain ⟨h1, h2, h3, h4⟩ := h
  have hlen := resize_length hl
  obtain ⟨st', e1, e2, e3, e4⟩ := forN_inv (P := fun row (t : Store) => t dest = ⟨c, r, l⟩ ∧ (t src).data.length = c * r ∧
      ∀ i j, i < row → j < r → (t src).data[i * r + j]? = l[j * c + i]?) c
      (fun row => forN r (transBody dest src c r row)) (put st dest ⟨c, r, l⟩)
    ⟨put_same _ _ _, by rw [put_other _ (Ne.symm hne), h3, Nat.mul_comm], fun i j hi => by omega⟩ (by
      rintro row hrow t ⟨p1, p2, p3⟩
      obtain ⟨t', q1, q2, q3, q4⟩ := forN_inv (P := fun col (t : Store) => t dest = ⟨c, r, l⟩ ∧ (t src).data.length = c * r ∧
          ∀ i j, (i < row ∧ j < r) ∨ (i = row ∧ j < col) → j < r → (t src).data[i * r + j]? = l[j * c + i]?) r
          (transBody dest src c r row) t
        ⟨p1, p2, fun i j hi hj => p3 i j (by omega) hj⟩ (by
          rintro col hcol t ⟨p1, p2, p3⟩
          have hlt : col * c + row < l.length := by have := flat_lt hcol hrow; rw [hlen, Nat.mul_comm c]; exact this
          have hx : l[col * c + row]? = some l[col * c + row] := List.getElem?_eq_getElem hlt
          refine ⟨_, by rw [transBody, p1, hx, Option.bind_some, setIdx_some _ (by rw [p2]; exact flat_lt hrow hcol), Option.map_some],
            ?_, ?_, ?_⟩
          · rw [put_other _ hne]; exact p1
          · rw [put_same]; simp only [List.length_set]; exact p2
          · intro i j hij hj
            rw [put_same]
            simp only
            by_cases e : i = row ∧ j = col
            · obtain ⟨e1, e2⟩ := e
              subst e1 e2
              rw [List.getElem?_set_self (by rw [p2]; exact flat_lt hrow hcol), hx]
            · rw [List.getElem?_set_ne (fun h => e (by have := flat_inj hcol hj h; exact ⟨this.1.symm, this.2.symm⟩))]
              exact p3 i j (by omega) hj)
      exact ⟨t', q1, q2, q3, fun i j hi hj => q4 i j (by omega) hj⟩)
  refine ⟨st', ?_, e2, e4⟩
  unfold trans
  simp only [h1, h2, mulu_eq hsz, hl]
  rw [put_other _ (Ne.symm hne), h2, e1]
  rfl

/-- C38: transposing a matrix of one row in place is right. What is missing: every other use, see `trans_violated`. -/
theorem trans_partial (st : Store) (m c : Nat) (f : Nat → Nat → Word) (mem) (h : Is (st m) 1 c f) (hsz : c < 4294967296) :
    ∃ st', trans st m m mem = some (0, st') ∧ Is (st' m) c 1 (fun i j => f j i) ∧ ∀ i, i ≠ m → st' i = st i := by
  obtain ⟨h1, h2, h3, h4⟩ := h
  obtain ⟨st', e1, e2, e3⟩ := forN_inv (P := fun _ (t : Store) => t m = ⟨c, 1, (st m).data⟩ ∧ ∀ i, i ≠ m → t i = st i) c
      (fun row => forN 1 (transBody m m 1 1 row)) (put st m ⟨c, 1, (st m).data⟩)
    ⟨put_same _ _ _, fun i hi => put_other _ hi⟩ (by
      rintro row hrow t ⟨p1, p2⟩
      have hr : row < (st m).data.length := by rw [h3]; omega
      have hx : (st m).data[row]? = some (st m).data[row] := List.getElem?_eq_getElem hr
      refine ⟨put t m ⟨c, 1, (st m).data⟩, ?_, put_same _ _ _, fun i hi => by rw [put_other _ hi]; exact p2 i hi⟩
      rw [forN, forN, Option.bind_some, transBody, p1]
      simp only [Nat.zero_mul, Nat.zero_add, Nat.mul_one, Nat.add_zero, hx, Option.bind_some, setIdx_some _ hr, Option.map_some,
        List.set_getElem_self])
  refine ⟨st', ?_, ?_, e3⟩
  · unfold trans
    simp only [h1, h2, Nat.mul_one, mulu, Nat.mod_eq_of_lt hsz, resize_same (show (st m).data.length = c by rw [h3, Nat.one_mul]), put_same]
    rw [e1]
    rfl
  · rw [e2]
    refine ⟨rfl, rfl, by simp only; rw [h3, Nat.one_mul, Nat.mul_one], fun i j hi hj => ?_⟩
    have := h4 0 i (by omega) hi
    have hj0 : j = 0 := by omega
    subst hj0
    rw [Nat.zero_mul, Nat.zero_add] at this
    simpa using this

/-- C38 fails for the access to one entry: of a matrix with entries it points to the product of the indices (the entry of row 0 and column 0
for the whole first row and first column). -/
theorem data_violated (m : Mat) (r c : Nat) (f : Nat → Nat → Word) (h : Is m (r + 1) (c + 1) f) (j : Nat) (hj : j < c + 1) :
    data m 0 j = some 0 := by
  obtain ⟨h1, h2, h3, h4⟩ := h
  unfold data
  have : 0 < m.data.length := by rw [h3]; exact Nat.mul_pos (by omega) (by omega)
  rw [if_neg (by omega)]
  simp only [mulu, Nat.zero_mul, Nat.zero_mod]
  rw [if_neg (by omega)]

/-- C38: what remains of the access: the pointer never leaves the entries, and the first entry is right. -/
theorem data_partial (m : Mat) (row col k : Nat) (h : data m row col = some k) : k < m.data.length ∧ (row = 0 → col = 0 → k = 0) := by
  unfold data at h
  split at h
  · exact nomatch h
  · simp only at h
    split at h
    · exact nomatch h
    · rename_i h2
      cases h
      exact ⟨by omega, fun e1 e2 => by rw [e1, e2]; rfl⟩

/-- C38: an index above the number of columns is refused, also for the row. -/
theorem data_refuses (m : Mat) (row col : Nat) (h : m.col < row ∨ m.col < col) : data m row col = none := by
  unfold data
  rw [if_pos h]

/-! Non-trivial cases: `(1 2; 3 4)` times `(5 6; 7 8)` into the first operand; the transposition and the access go wrong. -/
def exStore : Store := fun i =>
  if i = 0 then ⟨2, 2, [1, 2, 3, 4]⟩ else if i = 1 then ⟨2, 2, [5, 6, 7, 8]⟩ else if i = 2 then ⟨1, 2, [1, 2]⟩ else ⟨0, 0, []⟩

example : Is (exStore 0) 2 2 (fun i j => BitVec.ofNat 64 (i * 2 + j + 1)) := by
  refine ⟨rfl, rfl, rfl, fun i j hi hj => ?_⟩
  have hi : i = 0 ∨ i = 1 := by omega
  have hj : j = 0 ∨ j = 1 := by omega
  rcases hi with rfl | rfl <;> rcases hj with rfl | rfl <;> rfl
example : (mul exStore 0 0 1 (some fun _ => 9) none).map (fun r => (r.1, r.2 0)) = some (0, ⟨2, 2, [19, 22, 43, 50]⟩) := by decide +kernel
example : (add exStore 0 0 0 none).map (fun r => (r.1, r.2 0)) = some (0, ⟨2, 2, [2, 4, 6, 8]⟩) := by decide +kernel
example : (add exStore 0 0 2 none).map (fun r => (r.1, r.2 0)) = some (-22, ⟨2, 2, [1, 2, 3, 4]⟩) := by decide +kernel
example : (trans exStore 3 2 (some fun _ => 9)).map (fun r => (r.2 2, r.2 3)) = some (⟨1, 2, [9, 9]⟩, ⟨2, 1, [9, 9]⟩) := by decide +kernel
example : data (exStore 0) 1 1 = some 1 := by decide +kernel

end Bfdev.Matrix

import Verif.Mpi.Spec
import Verif.Dword.Props
/-! Facts about numbers in limbs and the raw array routines. -/
namespace Bfdev.Mpi
open Dword

theorem Limbs.nil : Limbs [] := fun _ h => absurd h List.not_mem_nil
theorem Limbs.head {x : Nat} {l : List Nat} (h : Limbs (x :: l)) : x < W64 := h x List.mem_cons_self
theorem Limbs.tail {x : Nat} {l : List Nat} (h : Limbs (x :: l)) : Limbs l := fun y hy => h y (List.mem_cons_of_mem _ hy)
theorem Limbs.cons {x : Nat} {l : List Nat} (h : x < W64) (h' : Limbs l) : Limbs (x :: l) := by
  intro y hy
  rcases List.mem_cons.1 hy with e | e
  · exact e ▸ h
  · exact h' y e
theorem Limbs.take {l : List Nat} (h : Limbs l) (n : Nat) : Limbs (l.take n) := fun y hy => h y (List.mem_of_mem_take hy)
theorem Limbs.drop {l : List Nat} (h : Limbs l) (n : Nat) : Limbs (l.drop n) := fun y hy => h y (List.mem_of_mem_drop hy)
theorem Limbs.append {l m : List Nat} (h : Limbs l) (h' : Limbs m) : Limbs (l ++ m) := by
  intro y hy
  rcases List.mem_append.1 hy with e | e
  · exact h y e
  · exact h' y e
theorem Limbs.getD {l : List Nat} (h : Limbs l) (n : Nat) : l.getD n 0 < W64 := by
  rw [List.getD_eq_getElem?_getD]
  rcases Nat.lt_or_ge n l.length with c | c
  · rw [List.getElem?_eq_getElem c]
    exact h _ (List.getElem_mem c)
  · rw [List.getElem?_eq_none c]
    decide

theorem val_append (l m : List Nat) : val (l ++ m) = val l + W64 ^ l.length * val m := by
  induction l with
  | nil => simp [val]
  | cons x l ih =>
    simp only [List.cons_append, val, ih, List.length_cons, Nat.pow_succ]
    generalize W64 = W
    rw [Nat.mul_add, Nat.add_assoc]
    congr 2
    rw [← Nat.mul_assoc, Nat.mul_comm W]

theorem val_lt {l : List Nat} (h : Limbs l) : val l < W64 ^ l.length := by
  induction l with
  | nil => simp [val]
  | cons x l ih =>
    have h1 := h.head
    have h2 := ih h.tail
    simp only [val, List.length_cons, Nat.pow_succ]
    generalize W64 ^ l.length = P at *
    generalize val l = v at *
    simp only [W64] at *
    omega

theorem val_take_succ (l : List Nat) (n : Nat) : val (l.take (n + 1)) = val (l.take n) + W64 ^ n * l.getD n 0 := by
  rcases Nat.lt_or_ge n l.length with c | c
  · rw [List.take_succ_eq_append_getElem c, val_append]
    congr 1
    rw [List.length_take, Nat.min_eq_left (by omega), List.getD_eq_getElem?_getD, List.getElem?_eq_getElem c]
    simp [val]
  · rw [List.take_of_length_le (l := l) (by omega), List.take_of_length_le (l := l) (by omega), List.getD_eq_getElem?_getD,
      List.getElem?_eq_none c]
    simp

theorem val_take_drop (l : List Nat) (n : Nat) (h : n ≤ l.length) : val l = val (l.take n) + W64 ^ n * val (l.drop n) := by
  have := val_append (l.take n) (l.drop n)
  rw [List.take_append_drop, List.length_take, Nat.min_eq_left h] at this
  exact this

theorem pow_pos (n : Nat) : 0 < W64 ^ n := Nat.pow_pos (by decide)

/-- A number without a leading zero limb is at least the weight of its leading limb. -/
theorem val_ge {l : List Nat} (h : l.getLast? ≠ some 0) (hne : l ≠ []) : W64 ^ (l.length - 1) ≤ val l := by
  have e := List.dropLast_concat_getLast hne
  have hx : l.getLast hne ≠ 0 := by
    intro c
    exact h (by rw [List.getLast?_eq_some_getLast hne, c])
  rw [← e, val_append]
  simp only [List.length_append, List.length_dropLast, List.length_singleton, Nat.add_sub_cancel, val, Nat.mul_zero, Nat.add_zero]
  have : W64 ^ (l.length - 1) * 1 ≤ W64 ^ (l.length - 1) * l.getLast hne := Nat.mul_le_mul_left _ (by omega)
  omega

theorem val_pos {l : List Nat} (h : l.getLast? ≠ some 0) (hne : l ≠ []) : 0 < val l :=
  Nat.lt_of_lt_of_le (pow_pos _) (val_ge h hne)

/-! ### Dropping leading zeros -/

theorem val_concat_zero (l : List Nat) : val (l ++ [0]) = val l := by rw [val_append]; simp [val]

theorem strip_concat (l : List Nat) (x : Nat) : strip (l ++ [x]) = if x = 0 then strip l else l ++ [x] := by
  unfold strip
  rw [List.reverse_concat, List.dropWhile_cons]
  by_cases c : x = 0
  · simp [c]
  · simp [c]

theorem strip_facts (l : List Nat) : val (strip l) = val l ∧ (strip l).getLast? ≠ some 0 ∧ (strip l).length ≤ l.length ∧
    (Limbs l → Limbs (strip l)) := by
  have key : ∀ n (l : List Nat), l.length = n → val (strip l) = val l ∧ (strip l).getLast? ≠ some 0 ∧ (strip l).length ≤ l.length ∧
      (Limbs l → Limbs (strip l)) := by
    intro n
    induction n with
    | zero =>
      intro l hl
      rw [List.length_eq_zero_iff.1 hl]
      exact ⟨rfl, by simp [strip], Nat.le_refl _, id⟩
    | succ n ih =>
      intro l hl
      rcases List.eq_nil_or_concat l with e | ⟨t, x, e⟩
      · rw [e] at hl; simp at hl
      · rw [List.concat_eq_append] at e
        subst e
        have ht : t.length = n := by rw [List.length_append] at hl; simpa using hl
        obtain ⟨i1, i2, i3, i4⟩ := ih t ht
        rw [strip_concat]
        split
        · rename_i c
          rw [c, val_concat_zero]
          refine ⟨i1, i2, by simp; omega, fun h => i4 fun y hy => h y (List.mem_append_left _ hy)⟩
        · rename_i c
          exact ⟨rfl, by simp [c], Nat.le_refl _, id⟩
  exact key _ l rfl

theorem strip_id {l : List Nat} (h : l.getLast? ≠ some 0) : strip l = l := by
  rcases List.eq_nil_or_concat l with e | ⟨t, x, e⟩
  · rw [e]; rfl
  · rw [List.concat_eq_append] at e
    subst e
    rw [strip_concat, if_neg]
    intro c
    simp [c] at h

theorem strip_eq_iff {l : List Nat} : strip l = l ↔ l.getLast? ≠ some 0 :=
  ⟨fun h => h ▸ (strip_facts l).2.1, strip_id⟩

/-! ### Comparison -/

theorem cmp_digit {P x y a b : Nat} (ha : a < P) (hb : b < P) (h : x < y) : a + P * x < b + P * y := by
  have h1 : P * (x + 1) ≤ P * y := Nat.mul_le_mul_left _ h
  have h2 : P * (x + 1) = P * x + P := by rw [Nat.mul_add, Nat.mul_one]
  omega

theorem cmpLoop_eq (a b : List Nat) (ha : Limbs a) (hb : Limbs b) (n : Nat) (h1 : n ≤ a.length) (h2 : n ≤ b.length) :
    cmpLoop a b n = compare (val (a.take n)) (val (b.take n)) := by
  induction n with
  | zero => simp [cmpLoop, val]
  | succ n ih =>
    have la := val_lt (ha.take n)
    have lb := val_lt (hb.take n)
    rw [List.length_take, Nat.min_eq_left (by omega)] at la lb
    rw [cmpLoop, val_take_succ, val_take_succ]
    rcases Nat.lt_trichotomy (a.getD n 0) (b.getD n 0) with c | c | c
    · rw [if_pos (by omega), if_neg (by omega)]
      exact (Nat.compare_eq_lt.2 (cmp_digit la lb c)).symm
    · rw [if_neg (by omega), ih (by omega) (by omega), c]
      generalize W64 ^ n * b.getD n 0 = z
      simp only [Nat.compare_eq_ite_lt, Nat.add_lt_add_iff_right]
    · rw [if_pos (by omega), if_pos c]
      exact (Nat.compare_eq_gt.2 (cmp_digit lb la c)).symm

theorem mpaCmp_eq_of_length {a b : List Nat} (ha : Limbs a) (hb : Limbs b) (h : a.length = b.length) :
    mpaCmp a b = compare (val a) (val b) := by
  rw [mpaCmp, if_neg (by omega), cmpLoop_eq a b ha hb _ (Nat.le_refl _) (by omega), List.take_length, h, List.take_length]

theorem val_lt_of_length {a b : List Nat} (ha : Limbs a) (hb : b.getLast? ≠ some 0) (h : a.length < b.length) : val a < val b := by
  have h1 := val_lt ha
  have h2 := val_ge hb (by intro e; rw [e] at h; simp at h)
  have h3 : W64 ^ a.length ≤ W64 ^ (b.length - 1) := Nat.pow_le_pow_right (by decide) (by omega)
  omega

theorem mpaCmp_eq {a b : List Nat} (ha : Limbs a) (hb : Limbs b) (na : a.getLast? ≠ some 0) (nb : b.getLast? ≠ some 0) :
    mpaCmp a b = compare (val a) (val b) := by
  rcases Nat.lt_trichotomy a.length b.length with c | c | c
  · rw [mpaCmp, if_pos (by omega), if_neg (by omega)]
    exact (Nat.compare_eq_lt.2 (val_lt_of_length ha nb c)).symm
  · exact mpaCmp_eq_of_length ha hb c
  · rw [mpaCmp, if_pos (by omega), if_pos (by omega)]
    exact (Nat.compare_eq_gt.2 (val_lt_of_length hb na c)).symm

theorem mpiCmp_eq {a b : Mpi} (ha : Wf a) (hb : Wf b) : mpiCmp a b = compare (val a.limbs) (val b.limbs) := by
  unfold mpiCmp
  by_cases c1 : a.limbs.length = 0
  · rw [if_pos c1]
    have e1 := List.length_eq_zero_iff.1 c1
    by_cases c2 : b.limbs.length = 0
    · rw [if_neg (by omega), e1, List.length_eq_zero_iff.1 c2]; rfl
    · rw [if_pos (by omega), e1]
      exact (Nat.compare_eq_lt.2 (val_pos hb.top (fun e => c2 (by rw [e]; rfl)))).symm
  · rw [if_neg c1]
    by_cases c2 : b.limbs.length = 0
    · rw [if_pos c2, List.length_eq_zero_iff.1 c2]
      exact (Nat.compare_eq_gt.2 (val_pos ha.top (fun e => c1 (by rw [e]; rfl)))).symm
    · rw [if_neg c2, mpaCmp_eq ha.words hb.words ha.top hb.top]

theorem mpiCmpi_eq {a : Mpi} {vi : Nat} (ha : Wf a) (hv : vi < W64) : mpiCmpi a vi = compare (val a.limbs) vi := by
  unfold mpiCmpi mpaCmpi
  rcases h : a.limbs with _ | ⟨x, l⟩
  · simp only [List.length_nil, if_pos, val]
    by_cases c : vi = 0
    · rw [c]; rfl
    · rw [if_pos c]; exact (Nat.compare_eq_lt.2 (by omega)).symm
  · rw [if_neg (by simp)]
    have hw := ha.words
    have ht := ha.top
    rw [h] at hw ht
    rcases l with _ | ⟨y, l⟩
    · rw [if_neg (by simp)]
      show (if x ≠ vi then (if x > vi then Ordering.gt else .lt) else .eq) = _
      rw [val, val, Nat.mul_zero, Nat.add_zero]
      rcases Nat.lt_trichotomy x vi with c | c | c
      · rw [if_pos (by omega), if_neg (by omega)]; exact (Nat.compare_eq_lt.2 c).symm
      · rw [if_neg (by omega), c]; exact (Nat.compare_eq_eq.2 rfl).symm
      · rw [if_pos (by omega), if_pos c]; exact (Nat.compare_eq_gt.2 c).symm
    · rw [if_pos (by simp)]
      have := val_ge ht (by simp)
      have h3 : W64 ^ 1 ≤ W64 ^ ((x :: y :: l).length - 1) := Nat.pow_le_pow_right (by decide) (by simp)
      rw [Nat.pow_one] at h3
      exact (Nat.compare_eq_gt.2 (by omega)).symm

/-! ### Addition and subtraction of arrays -/

theorem step_add {W P v c' x c A r L : Nat} (h1 : v + W * c' = x + c) (h2 : A + P * r = L + c') :
    v + W * A + P * W * r = x + W * L + c := by
  have e := congrArg (W * ·) h2
  simp only [Nat.mul_add] at e
  rw [Nat.mul_comm P, Nat.mul_assoc]
  generalize W * c' = a1 at *
  generalize W * A = a2 at *
  generalize W * (P * r) = a3 at *
  omega

theorem step_sub {W P v c' x c A r L : Nat} (h1 : v + c = x + W * c') (h2 : A + c' = L + P * r) :
    v + W * A + c = x + W * L + P * W * r := by
  have e := congrArg (W * ·) h2
  simp only [Nat.mul_add] at e
  rw [Nat.mul_comm P, Nat.mul_assoc]
  generalize W * c' = a1 at *
  generalize W * A = a2 at *
  generalize W * (P * r) = a3 at *
  omega

theorem carry_fact {x c : Nat} (hx : x < W64) (hc : c < W64) :
    w64 (x + c) + W64 * b2n (w64 (x + c) < x) = x + c ∧ w64 (x + c) < W64 ∧ b2n (w64 (x + c) < x) ≤ 1 := by
  unfold w64 b2n
  simp only [decide_eq_true_eq]
  split <;> simp only [W64] at * <;> omega

theorem borrow_fact {x c : Nat} (hx : x < W64) (hc : c < W64) :
    wsub x c + c = x + W64 * b2n (wsub x c > x) ∧ wsub x c < W64 ∧ b2n (wsub x c > x) ≤ 1 := by
  unfold wsub b2n
  simp only [decide_eq_true_eq]
  split <;> simp only [W64] at * <;> omega

attribute [local irreducible] wsub w64

theorem addc_ok (l : List Nat) : ∀ c, c ≤ 1 → Limbs l →
    val (addc l c).1 + W64 ^ l.length * (addc l c).2 = val l + c ∧ (addc l c).1.length = l.length ∧ Limbs (addc l c).1 ∧ (addc l c).2 ≤ 1 := by
  induction l with
  | nil => intro c hc _; simp [addc, val, hc, Limbs.nil]
  | cons x l ih =>
    intro c hc h
    have hc' : c < W64 := Nat.lt_of_le_of_lt hc (by decide)
    obtain ⟨f1, f2, f3⟩ := carry_fact h.head hc'
    obtain ⟨i1, i2, i3, i4⟩ := ih _ f3 h.tail
    have e : addc (x :: l) c = (w64 (x + c) :: (addc l (b2n (w64 (x + c) < x))).1, (addc l (b2n (w64 (x + c) < x))).2) := by rw [addc]
    rw [e]
    clear e
    generalize w64 (x + c) = v at *
    generalize b2n (v < x) = c' at *
    generalize addc l c' = r at *
    simp only [val, List.length_cons, Nat.pow_succ]
    exact ⟨step_add f1 i1, by rw [i2], Limbs.cons f2 i3, i4⟩

theorem subc_ok (l : List Nat) : ∀ c, c ≤ 1 → Limbs l →
    val (subc l c).1 + c = val l + W64 ^ l.length * (subc l c).2 ∧ (subc l c).1.length = l.length ∧ Limbs (subc l c).1 ∧ (subc l c).2 ≤ 1 := by
  induction l with
  | nil => intro c hc _; simp [subc, val, hc, Limbs.nil]
  | cons x l ih =>
    intro c hc h
    have hc' : c < W64 := Nat.lt_of_le_of_lt hc (by decide)
    obtain ⟨f1, f2, f3⟩ := borrow_fact h.head hc'
    obtain ⟨i1, i2, i3, i4⟩ := ih _ f3 h.tail
    have e : subc (x :: l) c = (wsub x c :: (subc l (b2n (wsub x c > x))).1, (subc l (b2n (wsub x c > x))).2) := by rw [subc]
    rw [e]
    clear e
    generalize wsub x c = v at *
    generalize b2n (v > x) = c' at *
    generalize subc l c' = r at *
    simp only [val, List.length_cons, Nat.pow_succ]
    exact ⟨step_sub f1 i1, by rw [i2], Limbs.cons f2 i3, i4⟩

theorem mpaAddi_ok {l : List Nat} {vi : Nat} (h : Limbs l) (hne : l ≠ []) (hv : vi < W64) :
    val (mpaAddi l vi).1 + W64 ^ l.length * (mpaAddi l vi).2 = val l + vi ∧ (mpaAddi l vi).1.length = l.length ∧ Limbs (mpaAddi l vi).1 ∧
      (mpaAddi l vi).2 ≤ 1 := by
  rcases l with _ | ⟨x, l⟩
  · exact absurd rfl hne
  · obtain ⟨f1, f2, f3⟩ := carry_fact h.head hv
    obtain ⟨i1, i2, i3, i4⟩ := addc_ok l _ f3 h.tail
    have e : mpaAddi (x :: l) vi = (w64 (x + vi) :: (addc l (b2n (w64 (x + vi) < x))).1, (addc l (b2n (w64 (x + vi) < x))).2) := by rw [mpaAddi]
    rw [e]
    clear e
    generalize w64 (x + vi) = v at *
    generalize b2n (v < x) = c' at *
    generalize addc l c' = r at *
    simp only [val, List.length_cons, Nat.pow_succ]
    exact ⟨step_add f1 i1, by rw [i2], Limbs.cons f2 i3, i4⟩

theorem mpaSubi_ok {l : List Nat} {vi : Nat} (h : Limbs l) (hne : l ≠ []) (hv : vi < W64) :
    val (mpaSubi l vi).1 + vi = val l + W64 ^ l.length * (mpaSubi l vi).2 ∧ (mpaSubi l vi).1.length = l.length ∧ Limbs (mpaSubi l vi).1 ∧
      (mpaSubi l vi).2 ≤ 1 := by
  rcases l with _ | ⟨x, l⟩
  · exact absurd rfl hne
  · obtain ⟨f1, f2, f3⟩ := borrow_fact h.head hv
    obtain ⟨i1, i2, i3, i4⟩ := subc_ok l _ f3 h.tail
    have e : mpaSubi (x :: l) vi = (wsub x vi :: (subc l (b2n (wsub x vi > x))).1, (subc l (b2n (wsub x vi > x))).2) := by rw [mpaSubi]
    rw [e]
    clear e
    generalize wsub x vi = v at *
    generalize b2n (v > x) = c' at *
    generalize subc l c' = r at *
    simp only [val, List.length_cons, Nat.pow_succ]
    exact ⟨step_sub f1 i1, by rw [i2], Limbs.cons f2 i3, i4⟩

/-! ### Adding and subtracting two arrays: exactly when no carry is lost -/

/-- As `NoLostCarry`, with a carry `c` into the first limb. -/
def NoLostC (a b : List Nat) (c : Nat) : Prop :=
  ∀ i, i < a.length → i < b.length → b.getD i 0 = W64 - 1 → ¬ W64 ^ i ≤ val (a.take i) + val (b.take i) + c

/-- As `NoLostBorrow`, with a borrow `c` from the first limb. -/
def NoLostB (a b : List Nat) (c : Nat) : Prop :=
  ∀ i, i < a.length → i < b.length → b.getD i 0 = W64 - 1 → ¬ val (a.take i) < val (b.take i) + c

theorem add_digit {x y c : Nat} (hx : x < W64) (hy : y < W64) (hc : c ≤ 1) :
    w64 (x + y + c) < W64 ∧ b2n (w64 (x + y + c) < x) ≤ 1 ∧
      (y = W64 - 1 ∧ c = 1 ∧ w64 (x + y + c) = x ∧ b2n (w64 (x + y + c) < x) = 0 ∨
        ¬ (y = W64 - 1 ∧ c = 1) ∧ w64 (x + y + c) + W64 * b2n (w64 (x + y + c) < x) = x + y + c) := by
  by_cases c1 : y = W64 - 1 ∧ c = 1
  · have e : w64 (x + y + c) = x := by unfold w64; simp only [W64] at *; omega
    rw [e]
    exact ⟨hx, by simp [b2n], Or.inl ⟨c1.1, c1.2, rfl, by simp [b2n]⟩⟩
  · have e : (x + y + c < W64 ∧ w64 (x + y + c) = x + y + c) ∨ (W64 ≤ x + y + c ∧ w64 (x + y + c) + W64 = x + y + c) := by
      unfold w64; simp only [W64] at *; omega
    generalize w64 (x + y + c) = v at *
    unfold b2n
    simp only [decide_eq_true_eq]
    rcases e with ⟨e1, e2⟩ | ⟨e1, e2⟩
    · rw [if_neg (by omega)]
      exact ⟨by omega, by omega, Or.inr ⟨c1, by rw [e2]; omega⟩⟩
    · rw [if_pos (by simp only [W64] at *; omega)]
      exact ⟨by simp only [W64] at *; omega, Nat.le_refl _, Or.inr ⟨c1, by rw [Nat.mul_one]; exact e2⟩⟩

theorem sub_digit {x y c : Nat} (hx : x < W64) (hy : y < W64) (hc : c ≤ 1) :
    wsub (wsub x y) c < W64 ∧ b2n (wsub (wsub x y) c > x) ≤ 1 ∧
      (y = W64 - 1 ∧ c = 1 ∧ wsub (wsub x y) c = x ∧ b2n (wsub (wsub x y) c > x) = 0 ∨
        ¬ (y = W64 - 1 ∧ c = 1) ∧ wsub (wsub x y) c + (y + c) = x + W64 * b2n (wsub (wsub x y) c > x)) := by
  have e1 : (y ≤ x ∧ wsub x y = x - y) ∨ (x < y ∧ wsub x y = x + W64 - y) := by unfold wsub; simp only [W64] at *; omega
  have e0 : wsub x y < W64 := by unfold wsub; exact Nat.mod_lt _ (by decide)
  generalize wsub x y = u at *
  have e2 : (c ≤ u ∧ wsub u c = u - c) ∨ (u < c ∧ wsub u c = u + W64 - c) := by unfold wsub; simp only [W64] at *; omega
  generalize wsub u c = v at *
  unfold b2n
  simp only [decide_eq_true_eq]
  by_cases c1 : y = W64 - 1 ∧ c = 1
  · have e : v = x := by simp only [W64] at *; omega
    rw [e, if_neg (by omega)]
    exact ⟨hx, Nat.zero_le _, Or.inl ⟨c1.1, c1.2, rfl, rfl⟩⟩
  · by_cases c2 : v > x
    · rw [if_pos c2]
      exact ⟨by simp only [W64] at *; omega, Nat.le_refl _, Or.inr ⟨c1, by simp only [W64] at *; omega⟩⟩
    · rw [if_neg c2]
      exact ⟨by simp only [W64] at *; omega, Nat.zero_le _, Or.inr ⟨c1, by simp only [W64] at *; omega⟩⟩

theorem shift_le {W P v c' x y c A B : Nat} (hv : v < W) (e : v + W * c' = x + y + c) :
    P * W ≤ x + W * A + (y + W * B) + c ↔ P ≤ A + B + c' := by
  rw [Nat.mul_comm P]
  have e2 : W * (A + B + c') = W * A + W * B + W * c' := by rw [Nat.mul_add, Nat.mul_add]
  constructor
  · intro h
    apply Classical.byContradiction
    intro n
    have : W * (A + B + c' + 1) ≤ W * P := Nat.mul_le_mul_left _ (by omega)
    rw [Nat.mul_add, e2] at this
    omega
  · intro h
    have : W * P ≤ W * (A + B + c') := Nat.mul_le_mul_left _ h
    omega

theorem noLostC_cons {x y c v c' : Nat} {a b : List Nat} (hc : c ≤ 1) (hv : v < W64) (e : v + W64 * c' = x + y + c) :
    NoLostC (x :: a) (y :: b) c ↔ ¬ (y = W64 - 1 ∧ c = 1) ∧ NoLostC a b c' := by
  have key : ∀ i, (W64 ^ (i + 1) ≤ val ((x :: a).take (i + 1)) + val ((y :: b).take (i + 1)) + c ↔
      W64 ^ i ≤ val (a.take i) + val (b.take i) + c') := by
    intro i
    rw [List.take_succ_cons, List.take_succ_cons, val, val, Nat.pow_succ]
    exact shift_le hv e
  constructor
  · intro h
    refine ⟨?_, ?_⟩
    · rintro ⟨e1, e2⟩
      exact h 0 (by simp) (by simp) (by rw [e1]; rfl) (by rw [e2]; simp)
    · intro i h1 h2 h3 h4
      exact h (i + 1) (by simpa using h1) (by simpa using h2) (by simpa using h3) ((key i).2 h4)
  · rintro ⟨h0, h⟩ i h1 h2 h3 h4
    rcases i with _ | i
    · refine h0 ⟨by simpa using h3, ?_⟩
      simp only [Nat.pow_zero, List.take_zero, val] at h4
      omega
    · exact h i (by simpa using h1) (by simpa using h2) (by simpa using h3) ((key i).1 h4)

theorem noLostB_cons {x y c v c' : Nat} {a b : List Nat} (hc : c ≤ 1) (hv : v < W64) (e : v + (y + c) = x + W64 * c') :
    NoLostB (x :: a) (y :: b) c ↔ ¬ (y = W64 - 1 ∧ c = 1) ∧ NoLostB a b c' := by
  have key : ∀ i, (val ((x :: a).take (i + 1)) < val ((y :: b).take (i + 1)) + c ↔ val (a.take i) < val (b.take i) + c') := by
    intro i
    rw [List.take_succ_cons, List.take_succ_cons, val, val]
    generalize val (a.take i) = A
    generalize val (b.take i) = B
    constructor
    · intro h
      apply Classical.byContradiction
      intro n
      have h1 : W64 * (B + c') ≤ W64 * A := Nat.mul_le_mul_left _ (by omega)
      rw [Nat.mul_add] at h1
      generalize W64 * A = p at *
      generalize W64 * B = q at *
      generalize W64 * c' = r at *
      omega
    · intro h
      have h1 : W64 * (A + 1) ≤ W64 * (B + c') := Nat.mul_le_mul_left _ (by omega)
      rw [Nat.mul_add, Nat.mul_add, Nat.mul_one] at h1
      generalize W64 * A = p at *
      generalize W64 * B = q at *
      generalize W64 * c' = r at *
      omega
  constructor
  · intro h
    refine ⟨?_, ?_⟩
    · rintro ⟨e1, e2⟩
      exact h 0 (by simp) (by simp) (by rw [e1]; rfl) (by rw [e2]; simp)
    · intro i h1 h2 h3 h4
      exact h (i + 1) (by simpa using h1) (by simpa using h2) (by simpa using h3) ((key i).2 h4)
  · rintro ⟨h0, h⟩ i h1 h2 h3 h4
    rcases i with _ | i
    · refine h0 ⟨by simpa using h3, ?_⟩
      simp only [List.take_zero, val] at h4
      omega
    · exact h i (by simpa using h1) (by simpa using h2) (by simpa using h3) ((key i).1 h4)

theorem noLostC_nil_left (b : List Nat) (c : Nat) : NoLostC [] b c := fun i h => absurd h (Nat.not_lt_zero i)
theorem noLostC_nil_right (a : List Nat) (c : Nat) : NoLostC a [] c := fun i _ h => absurd h (Nat.not_lt_zero i)
theorem noLostB_nil_left (b : List Nat) (c : Nat) : NoLostB [] b c := fun i h => absurd h (Nat.not_lt_zero i)
theorem noLostB_nil_right (a : List Nat) (c : Nat) : NoLostB a [] c := fun i _ h => absurd h (Nat.not_lt_zero i)

/-- A digit of an exact sum. -/
theorem sum_exact {W P v c' x y c A r La Lb : Nat} (h1 : v + W * c' = x + y + c) :
    (v + W * A + P * W * r ≤ x + W * La + (y + W * Lb) + c ↔ W * (A + P * r) ≤ W * (La + Lb + c')) ∧
    (v + W * A + P * W * r = x + W * La + (y + W * Lb) + c ↔ W * (A + P * r) = W * (La + Lb + c')) := by
  rw [Nat.mul_comm P, Nat.mul_assoc]
  simp only [Nat.mul_add]
  generalize W * c' = a1 at *
  generalize W * A = a2 at *
  generalize W * (P * r) = a3 at *
  generalize W * La = a4 at *
  generalize W * Lb = a5 at *
  omega

theorem diff_exact {W P v c' x y c A r La Lb : Nat} (h1 : v + (y + c) = x + W * c') :
    (x + W * La + P * W * r ≤ v + W * A + (y + W * Lb) + c ↔ W * (La + P * r) ≤ W * (A + Lb + c')) ∧
    (x + W * La + P * W * r = v + W * A + (y + W * Lb) + c ↔ W * (La + P * r) = W * (A + Lb + c')) := by
  rw [Nat.mul_comm P, Nat.mul_assoc]
  simp only [Nat.mul_add]
  generalize W * c' = a1 at *
  generalize W * A = a2 at *
  generalize W * (P * r) = a3 at *
  generalize W * La = a4 at *
  generalize W * Lb = a5 at *
  omega

theorem mul_le_iff {a b : Nat} : W64 * a ≤ W64 * b ↔ a ≤ b := Nat.mul_le_mul_left_iff (by decide)
theorem mul_eq_iff {a b : Nat} : W64 * a = W64 * b ↔ a = b := Nat.mul_right_inj (by decide)

theorem mpaAdd_ok (a : List Nat) : ∀ b c, c ≤ 1 → Limbs a → Limbs b →
    (mpaAdd a b c).1.length = max a.length b.length ∧ Limbs (mpaAdd a b c).1 ∧ (mpaAdd a b c).2 ≤ 1 ∧
    val (mpaAdd a b c).1 + W64 ^ max a.length b.length * (mpaAdd a b c).2 ≤ val a + val b + c ∧
    (val (mpaAdd a b c).1 + W64 ^ max a.length b.length * (mpaAdd a b c).2 = val a + val b + c ↔ NoLostC a b c) := by
  induction a with
  | nil =>
    intro b c hc _ hb
    obtain ⟨i1, i2, i3, i4⟩ := addc_ok b c hc hb
    have e : mpaAdd [] b c = addc b c := by rw [mpaAdd.eq_def]
    rw [e]
    simp only [List.length_nil, Nat.zero_max, val, Nat.zero_add]
    exact ⟨i2, i3, i4, Nat.le_of_eq i1, fun _ => noLostC_nil_left _ _, fun _ => i1⟩
  | cons x a ih =>
    intro b c hc ha hb
    rcases b with _ | ⟨y, b⟩
    · obtain ⟨i1, i2, i3, i4⟩ := addc_ok (x :: a) c hc ha
      have e : mpaAdd (x :: a) [] c = addc (x :: a) c := by rw [mpaAdd.eq_def]
      rw [e]
      generalize x :: a = l at *
      simp only [List.length_nil, Nat.max_zero]
      rw [show val l + val [] + c = val l + c by rw [val]; omega]
      exact ⟨i2, i3, i4, Nat.le_of_eq i1, fun _ => noLostC_nil_right _ _, fun _ => i1⟩
    · obtain ⟨f1, f2, f3⟩ := add_digit ha.head hb.head hc
      obtain ⟨i1, i2, i3, i4, i5⟩ := ih b _ f2 ha.tail hb.tail
      have e : mpaAdd (x :: a) (y :: b) c = (w64 (x + y + c) :: (mpaAdd a b (b2n (w64 (x + y + c) < x))).1,
        (mpaAdd a b (b2n (w64 (x + y + c) < x))).2) := by rw [mpaAdd.eq_def]
      rw [e]
      clear e
      generalize hv : w64 (x + y + c) = v at *
      generalize b2n (v < x) = c' at *
      generalize mpaAdd a b c' = r at *
      simp only [val, List.length_cons, ← Nat.succ_eq_add_one, Nat.succ_max_succ, Nat.pow_succ]
      refine ⟨by rw [i1], Limbs.cons f1 i2, i3, ?_⟩
      rcases f3 with ⟨g1, g2, g3, g4⟩ | ⟨g1, g2⟩
      · have k : v + W64 * val r.1 + W64 ^ max a.length b.length * W64 * r.2 < x + W64 * val a + (y + W64 * val b) + c := by
          have h := Nat.mul_le_mul_left W64 i4
          rw [g4] at h
          rw [Nat.mul_comm (W64 ^ max a.length b.length), Nat.mul_assoc]
          simp only [Nat.mul_add] at h
          generalize W64 * (W64 ^ max a.length b.length * r.2) = z1 at *
          generalize W64 * val r.1 = z2 at *
          generalize W64 * val a = z3 at *
          generalize W64 * val b = z4 at *
          clear i5 hv i4 f1
          simp only [W64] at g1
          omega
        refine ⟨Nat.le_of_lt k, fun h => absurd h (Nat.ne_of_lt k), fun h => ?_⟩
        exact absurd (by rw [g2, Nat.pow_zero]; simp [val]) (h 0 (by simp) (by simp) (by rw [g1]; rfl))
      · obtain ⟨s1, s2⟩ := sum_exact (W := W64) (P := W64 ^ max a.length b.length) (A := val r.1) (r := r.2) (La := val a) (Lb := val b) g2
        refine ⟨s1.2 (mul_le_iff.2 i4), ?_⟩
        rw [s2, mul_eq_iff, i5, noLostC_cons hc f1 g2]
        exact ⟨fun h => ⟨g1, h⟩, fun h => h.2⟩

theorem mpaSub_ok (a : List Nat) : ∀ b c, c ≤ 1 → Limbs a → Limbs b → b.length ≤ a.length →
    (mpaSub a b c).1.length = a.length ∧ Limbs (mpaSub a b c).1 ∧ (mpaSub a b c).2 ≤ 1 ∧
    val a + W64 ^ a.length * (mpaSub a b c).2 ≤ val (mpaSub a b c).1 + val b + c ∧
    (val a + W64 ^ a.length * (mpaSub a b c).2 = val (mpaSub a b c).1 + val b + c ↔ NoLostB a b c) := by
  induction a with
  | nil =>
    intro b c hc _ _ hl
    have : b = [] := List.length_eq_zero_iff.1 (by simpa using hl)
    subst this
    have e : mpaSub [] [] c = ([], c) := by rw [mpaSub.eq_def]
    rw [e]
    simp [val, hc, Limbs.nil, noLostB_nil_left]
  | cons x a ih =>
    intro b c hc ha hb hl
    rcases b with _ | ⟨y, b⟩
    · obtain ⟨i1, i2, i3, i4⟩ := subc_ok (x :: a) c hc ha
      have e : mpaSub (x :: a) [] c = subc (x :: a) c := by rw [mpaSub.eq_def]
      rw [e]
      generalize x :: a = l at *
      rw [show val (subc l c).1 + val [] + c = val (subc l c).1 + c by rw [val]; omega]
      exact ⟨i2, i3, i4, Nat.le_of_eq i1.symm, fun _ => noLostB_nil_right _ _, fun _ => i1.symm⟩
    · obtain ⟨f1, f2, f3⟩ := sub_digit ha.head hb.head hc
      obtain ⟨i1, i2, i3, i4, i5⟩ := ih b _ f2 ha.tail hb.tail (by simpa using hl)
      have e : mpaSub (x :: a) (y :: b) c = (wsub (wsub x y) c :: (mpaSub a b (b2n (wsub (wsub x y) c > x))).1,
        (mpaSub a b (b2n (wsub (wsub x y) c > x))).2) := by rw [mpaSub.eq_def]
      rw [e]
      clear e
      generalize hv : wsub (wsub x y) c = v at *
      generalize b2n (v > x) = c' at *
      generalize mpaSub a b c' = r at *
      simp only [val, List.length_cons, Nat.pow_succ]
      refine ⟨by rw [i1], Limbs.cons f1 i2, i3, ?_⟩
      rcases f3 with ⟨g1, g2, g3, g4⟩ | ⟨g1, g2⟩
      · have k : x + W64 * val a + W64 ^ a.length * W64 * r.2 < v + W64 * val r.1 + (y + W64 * val b) + c := by
          have h := Nat.mul_le_mul_left W64 i4
          rw [g4] at h
          rw [Nat.mul_comm (W64 ^ a.length), Nat.mul_assoc]
          simp only [Nat.mul_add] at h
          generalize W64 * (W64 ^ a.length * r.2) = z1 at *
          generalize W64 * val r.1 = z2 at *
          generalize W64 * val a = z3 at *
          generalize W64 * val b = z4 at *
          clear i5 hv i4 f1
          simp only [W64] at g1
          omega
        refine ⟨Nat.le_of_lt k, fun h => absurd h (Nat.ne_of_lt k), fun h => ?_⟩
        exact absurd (by rw [g2]; simp [val]) (h 0 (by simp) (by simp) (by rw [g1]; rfl))
      · obtain ⟨s1, s2⟩ := diff_exact (W := W64) (P := W64 ^ a.length) (A := val r.1) (r := r.2) (La := val a) (Lb := val b) g2
        refine ⟨s1.2 (mul_le_iff.2 i4), ?_⟩
        rw [s2, mul_eq_iff, i5, noLostB_cons hc f1 g2]
        exact ⟨fun h => ⟨g1, h⟩, fun h => h.2⟩

theorem noLostC_zero {a b : List Nat} : NoLostC a b 0 ↔ NoLostCarry a b := Iff.rfl
theorem noLostB_zero {a b : List Nat} : NoLostB a b 0 ↔ NoLostBorrow a b := Iff.rfl

end Bfdev.Mpi

import Verif.Mpi.Lemmas
/-! The multiplication routines. -/
namespace Bfdev.Mpi
open Dword

theorem mul_digit {x vi c : Nat} (hx : x < W64) (hv : vi < W64) (hc : c < W64) :
    w64 ((umul x vi).2 + c) < W64 ∧ w64 (b2n (w64 ((umul x vi).2 + c) < c) + (umul x vi).1) < W64 ∧
      w64 ((umul x vi).2 + c) + W64 * w64 (b2n (w64 ((umul x vi).2 + c) < c) + (umul x vi).1) = x * vi + c := by
  obtain ⟨u1, u2, u3⟩ := umul_correct x vi hx hv
  have hm : x * vi ≤ (W64 - 1) * (W64 - 1) := Nat.mul_le_mul (by omega) (by omega)
  generalize (umul x vi).1 = h at *
  generalize (umul x vi).2 = l at *
  generalize x * vi = p at *
  have e : (l + c < W64 ∧ w64 (l + c) = l + c) ∨ (W64 ≤ l + c ∧ w64 (l + c) + W64 = l + c) := by
    unfold w64; simp only [W64] at *; omega
  generalize w64 (l + c) = low at *
  unfold b2n
  simp only [decide_eq_true_eq]
  rcases e with ⟨e1, e2⟩ | ⟨e1, e2⟩
  · rw [if_neg (by omega), Nat.zero_add]
    have : w64 h = h := Nat.mod_eq_of_lt u2
    rw [this]
    exact ⟨by omega, u2, by simp only [W64] at *; omega⟩
  · rw [if_pos (by simp only [W64] at *; omega)]
    have : w64 (1 + h) = 1 + h := Nat.mod_eq_of_lt (by simp only [W64] at *; omega)
    rw [this]
    exact ⟨by simp only [W64] at *; omega, by simp only [W64] at *; omega, by simp only [W64] at *; omega⟩

/-- A further limb added to the product digit still fits. -/
theorem mac_digit {p c low c1 y : Nat} (hp : p ≤ (W64 - 1) * (W64 - 1)) (hc : c < W64) (hy : y < W64) (hl : low < W64)
    (h : low + W64 * c1 = p + c) :
    w64 (y + low) < W64 ∧ w64 (c1 + b2n (w64 (y + low) < y)) < W64 ∧ w64 (y + low) + W64 * w64 (c1 + b2n (w64 (y + low) < y)) = y + p + c := by
  obtain ⟨f1, f2, f3⟩ := carry_fact hy hl
  generalize w64 (y + low) = v at *
  generalize b2n (v < y) = b at *
  have hm : w64 (c1 + b) = c1 + b := Nat.mod_eq_of_lt (by simp only [W64] at *; omega)
  rw [hm]
  exact ⟨f2, by simp only [W64] at *; omega, by simp only [W64] at *; omega⟩

/-- A product digit taken off a limb. -/
theorem msu_digit {p c low c1 y : Nat} (hp : p ≤ (W64 - 1) * (W64 - 1)) (hc : c < W64) (hy : y < W64) (hl : low < W64)
    (h : low + W64 * c1 = p + c) :
    wsub y low < W64 ∧ w64 (c1 + b2n (wsub y low > y)) < W64 ∧ wsub y low + (p + c) = y + W64 * w64 (c1 + b2n (wsub y low > y)) := by
  obtain ⟨f1, f2, f3⟩ := borrow_fact hy hl
  generalize wsub y low = v at *
  have hb : b2n (v > y) = 1 → low ≠ 0 := by
    intro e
    simp only [b2n] at e
    split at e
    · rename_i e2; simp only [gt_iff_lt, decide_eq_true_eq] at e2; rw [show b2n (decide (v > y)) = 1 by simp [b2n, e2]] at f1; simp only [W64] at *; omega
    · simp at e
  generalize b2n (v > y) = b at *
  have hm : w64 (c1 + b) = c1 + b := Nat.mod_eq_of_lt (by simp only [W64] at *; omega)
  rw [hm]
  exact ⟨f2, by simp only [W64] at *; omega, by simp only [W64] at *; omega⟩

theorem prod_le {x v : Nat} (hx : x < W64) (hv : v < W64) : x * v ≤ (W64 - 1) * (W64 - 1) :=
  Nat.mul_le_mul (by omega) (by omega)

attribute [local irreducible] wsub w64 umul

theorem mpaMuli_ok (vi : Nat) (hv : vi < W64) (l : List Nat) : ∀ c, c < W64 → Limbs l →
    val (mpaMuli l vi c).1 + W64 ^ l.length * (mpaMuli l vi c).2 = val l * vi + c ∧ (mpaMuli l vi c).1.length = l.length ∧
      Limbs (mpaMuli l vi c).1 ∧ (mpaMuli l vi c).2 < W64 := by
  induction l with
  | nil => intro c hc _; simp [mpaMuli, val, hc, Limbs.nil]
  | cons x l ih =>
    intro c hc h
    obtain ⟨f1, f2, f3⟩ := mul_digit h.head hv hc
    obtain ⟨i1, i2, i3, i4⟩ := ih _ f2 h.tail
    have e : mpaMuli (x :: l) vi c = (w64 ((umul x vi).2 + c) :: (mpaMuli l vi (w64 (b2n (w64 ((umul x vi).2 + c) < c) + (umul x vi).1))).1,
        (mpaMuli l vi (w64 (b2n (w64 ((umul x vi).2 + c) < c) + (umul x vi).1))).2) := by rw [mpaMuli.eq_def]
    rw [e]
    clear e
    generalize w64 ((umul x vi).2 + c) = low at *
    generalize w64 (b2n (low < c) + (umul x vi).1) = c' at *
    generalize mpaMuli l vi c' = r at *
    simp only [val, List.length_cons, Nat.pow_succ]
    refine ⟨?_, by rw [i2], Limbs.cons f1 i3, i4⟩
    rw [Nat.add_mul, Nat.mul_assoc W64]
    exact step_add f3 i1

theorem mpaMsui_ok (vi : Nat) (hv : vi < W64) (a : List Nat) : ∀ s c, c < W64 → Limbs a → Limbs s → s.length = a.length →
    val (mpaMsui s a vi c).1 + (val a * vi + c) = val s + W64 ^ a.length * (mpaMsui s a vi c).2 ∧ (mpaMsui s a vi c).1.length = a.length ∧
      Limbs (mpaMsui s a vi c).1 ∧ (mpaMsui s a vi c).2 < W64 := by
  induction a with
  | nil =>
    intro s c hc _ _ hl
    have : s = [] := List.length_eq_zero_iff.1 (by simpa using hl)
    subst this
    simp [mpaMsui, val, hc, Limbs.nil]
  | cons x a ih =>
    intro s c hc h hs hl
    rcases s with _ | ⟨y, s⟩
    · simp at hl
    obtain ⟨f1, f2, f3⟩ := mul_digit h.head hv hc
    obtain ⟨k1, k2, k3⟩ := msu_digit (prod_le h.head hv) hc hs.head f1 f3
    obtain ⟨i1, i2, i3, i4⟩ := ih s _ k2 h.tail hs.tail (by simpa using hl)
    have e : mpaMsui (y :: s) (x :: a) vi c =
        let low := w64 ((umul x vi).2 + c)
        let c1 := w64 (b2n (low < c) + (umul x vi).1)
        let r := mpaMsui s a vi (w64 (c1 + b2n (wsub y low > y)))
        (wsub y low :: r.1, r.2) := by rw [mpaMsui.eq_def]
    rw [e]
    clear e
    dsimp only
    generalize w64 ((umul x vi).2 + c) = low at *
    generalize w64 (b2n (low < c) + (umul x vi).1) = c1 at *
    generalize wsub y low = v at *
    generalize w64 (c1 + b2n (v > y)) = c' at *
    generalize mpaMsui s a vi c' = r at *
    simp only [val, List.length_cons, Nat.pow_succ]
    refine ⟨?_, by rw [i2], Limbs.cons k1 i3, i4⟩
    have := step_sub (W := W64) (P := W64 ^ a.length) (v := v) (c' := c') (x := y) (c := x * vi + c) (A := val r.1 + val a * vi) (r := r.2)
      (L := val s) k3 (by rw [Nat.add_assoc]; exact i1)
    rw [Nat.add_mul, Nat.mul_assoc]
    rw [Nat.mul_add] at this
    generalize W64 * val r.1 = z1 at *
    generalize W64 * (val a * vi) = z2 at *
    generalize W64 * val s = z3 at *
    generalize W64 ^ a.length * W64 * r.2 = z4 at *
    omega

/-! ### Multiplication on the block of the result -/

/-- The number in limbs `off … off + n - 1` of a block. -/
def mval (m : Nat → Nat) : Nat → Nat → Nat
  | _, 0 => 0
  | off, n + 1 => m off + W64 * mval m (off + 1) n

theorem mval_congr {m m' : Nat → Nat} (n : Nat) : ∀ off, (∀ k, off ≤ k → k < off + n → m k = m' k) → mval m off n = mval m' off n := by
  induction n with
  | zero => intro off _; rfl
  | succ n ih =>
    intro off h
    rw [mval, mval, h off (Nat.le_refl _) (by omega), ih (off + 1) (fun k h1 h2 => h k (by omega) (by omega))]

theorem mval_add (m : Nat → Nat) (k : Nat) : ∀ off n, mval m off (k + n) = mval m off k + W64 ^ k * mval m (off + k) n := by
  induction k with
  | zero => intro off n; simp [mval]
  | succ k ih =>
    intro off n
    rw [show k + 1 + n = (k + n) + 1 by omega, mval, mval, ih (off + 1) n, show off + 1 + k = off + (k + 1) by omega, Nat.pow_succ,
      Nat.mul_add, Nat.add_assoc, ← Nat.mul_assoc, Nat.mul_comm W64 (W64 ^ k)]

theorem mval_list (l : List Nat) : ∀ n off, off + n ≤ l.length → mval (fun k => l.getD k 0) off n = val ((l.drop off).take n) := by
  intro n
  induction n with
  | zero => intro off _; simp [mval, val]
  | succ n ih =>
    intro off h
    have hlt : off < l.length := by omega
    have e : (l.drop off).take (n + 1) = l[off] :: (l.drop (off + 1)).take n := by
      rw [List.drop_eq_getElem_cons hlt, List.take_succ_cons]
    rw [mval, ih (off + 1) (by omega), e, val]
    congr 1
    simp [hlt]

theorem mval_range (m : Nat → Nat) (n : Nat) : val ((List.range n).map m) = mval m 0 n := by
  have key : ∀ n off, val ((List.range' off n).map m) = mval m off n := by
    intro n
    induction n with
    | zero => intro off; rfl
    | succ n ih => intro off; rw [List.range'_succ, List.map_cons, val, ih, mval]
  rw [List.range_eq_range', key]

/-- Outside a range nothing has changed, and every limb is a word. -/
structure Only (m m' : Nat → Nat) (lo hi : Nat) : Prop where
  low : ∀ k, k < lo → m' k = m k
  high : ∀ k, hi ≤ k → m' k = m k
  words : (∀ k, m k < W64) → ∀ k, m' k < W64

theorem put_only {m m' : Nat → Nat} {i v hi : Nat} (hv : v < W64) (h : Only (put m i v) m' (i + 1) hi) (hh : i + 1 ≤ hi) : Only m m' i hi := by
  refine ⟨fun k hk => ?_, fun k hk => ?_, fun hw => h.words fun k => ?_⟩
  · rw [h.low k (by omega), put, if_neg (by omega)]
  · rw [h.high k hk, put, if_neg (by omega)]
  · unfold put; split
    · exact hv
    · exact hw k

theorem put_at {m m' : Nat → Nat} {i v hi : Nat} (h : Only (put m i v) m' (i + 1) hi) : m' i = v := by
  rw [h.low i (by omega), put, if_pos rfl]

theorem put_above (m : Nat → Nat) (i v n : Nat) : mval (put m i v) (i + 1) n = mval m (i + 1) n :=
  mval_congr n _ fun k h1 _ => by rw [put, if_neg (by omega)]

theorem muliM_ok (a : List Nat) (ha : Limbs a) (vi : Nat) (hv : vi < W64) (n : Nat) : ∀ j c m, c < W64 →
    Only m (muliM (.own a) vi n j c m).1 j (j + n) ∧ (muliM (.own a) vi n j c m).2 < W64 ∧
    mval (muliM (.own a) vi n j c m).1 j n + W64 ^ n * (muliM (.own a) vi n j c m).2 = mval (fun k => a.getD k 0) j n * vi + c := by
  induction n with
  | zero => intro j c m hc; simp [muliM, mval, hc]; exact ⟨fun _ _ => rfl, fun _ _ => rfl, id⟩
  | succ n ih =>
    intro j c m hc
    obtain ⟨f1, f2, f3⟩ := mul_digit (ha.getD j) hv hc
    have e : muliM (.own a) vi (n + 1) j c m = muliM (.own a) vi n (j + 1) (w64 (b2n (w64 ((umul (a.getD j 0) vi).2 + c) < c) +
      (umul (a.getD j 0) vi).1)) (put m j (w64 ((umul (a.getD j 0) vi).2 + c))) := by rw [muliM]; rfl
    rw [e]
    clear e
    generalize w64 ((umul (a.getD j 0) vi).2 + c) = low at *
    generalize w64 (b2n (low < c) + (umul (a.getD j 0) vi).1) = c' at *
    obtain ⟨o, i2, i3⟩ := ih (j + 1) c' (put m j low) f2
    rw [show j + 1 + n = j + (n + 1) by omega] at o
    have hat := put_at o
    generalize muliM (.own a) vi n (j + 1) c' (put m j low) = r at *
    refine ⟨put_only f1 o (by omega), i2, ?_⟩
    rw [mval, mval, hat, Nat.pow_succ, Nat.add_mul, Nat.mul_assoc W64]
    exact step_add f3 i3

theorem maciM_ok (a : List Nat) (ha : Limbs a) (off vi : Nat) (hv : vi < W64) (n : Nat) : ∀ j c m, c < W64 → (∀ k, m k < W64) →
    Only m (maciM (.own a) off vi n j c m).1 (off + j) (off + j + n) ∧ (maciM (.own a) off vi n j c m).2 < W64 ∧
    mval (maciM (.own a) off vi n j c m).1 (off + j) n + W64 ^ n * (maciM (.own a) off vi n j c m).2 =
      mval m (off + j) n + mval (fun k => a.getD k 0) j n * vi + c := by
  induction n with
  | zero => intro j c m hc _; simp [maciM, mval, hc]; exact ⟨fun _ _ => rfl, fun _ _ => rfl, id⟩
  | succ n ih =>
    intro j c m hc hw
    obtain ⟨f1, f2, f3⟩ := mul_digit (ha.getD j) hv hc
    obtain ⟨k1, k2, k3⟩ := mac_digit (prod_le (ha.getD j) hv) hc (hw (off + j)) f1 f3
    have e : maciM (.own a) off vi (n + 1) j c m =
        let low := w64 ((umul (a.getD j 0) vi).2 + c)
        let c1 := w64 (b2n (low < c) + (umul (a.getD j 0) vi).1)
        let v := w64 (m (off + j) + low)
        maciM (.own a) off vi n (j + 1) (w64 (c1 + b2n (v < m (off + j)))) (put m (off + j) v) := by rw [maciM]; rfl
    rw [e]
    clear e
    dsimp only
    generalize w64 ((umul (a.getD j 0) vi).2 + c) = low at *
    generalize w64 (b2n (low < c) + (umul (a.getD j 0) vi).1) = c1 at *
    generalize w64 (m (off + j) + low) = v at *
    generalize w64 (c1 + b2n (v < m (off + j))) = c' at *
    obtain ⟨o, i2, i3⟩ := ih (j + 1) c' (put m (off + j) v) k2 (fun k => by unfold put; split; exact k1; exact hw k)
    rw [show off + (j + 1) = off + j + 1 by omega] at o i3
    rw [show off + j + 1 + n = off + j + (n + 1) by omega] at o
    rw [put_above] at i3
    have hat := put_at o
    generalize maciM (.own a) off vi n (j + 1) c' (put m (off + j) v) = r at *
    refine ⟨put_only k1 o (by omega), i2, ?_⟩
    rw [mval, mval, mval, hat, Nat.pow_succ, Nat.add_mul, Nat.mul_assoc W64]
    have := step_add (W := W64) (P := W64 ^ n) (v := v) (c' := c') (x := m (off + j) + a.getD j 0 * vi) (c := c) (A := mval r.1 (off + j + 1) n)
      (r := r.2) (L := mval m (off + j + 1) n + mval (fun k => a.getD k 0) (j + 1) n * vi) k3 i3
    rw [Nat.mul_add W64 (mval m (off + j + 1) n)] at this
    generalize W64 * mval m (off + j + 1) n = z1 at *
    generalize W64 * (mval (fun k => a.getD k 0) (j + 1) n * vi) = z2 at *
    generalize W64 * mval r.1 (off + j + 1) n = z3 at *
    generalize W64 ^ n * W64 * r.2 = z4 at *
    generalize a.getD j 0 * vi = z5 at *
    omega

theorem addM_ok (a : List Nat) (ha : Limbs a) (hmax : ∀ x, x ∈ a → x ≠ W64 - 1) (off : Nat) (n : Nat) : ∀ j c m, c ≤ 1 → (∀ k, m k < W64) →
    Only m (addM (.own a) off n j c m).1 (off + j) (off + j + n) ∧ (addM (.own a) off n j c m).2 ≤ 1 ∧
    mval (addM (.own a) off n j c m).1 (off + j) n + W64 ^ n * (addM (.own a) off n j c m).2 =
      mval m (off + j) n + mval (fun k => a.getD k 0) j n + c := by
  induction n with
  | zero => intro j c m hc _; simp [addM, mval, hc]; exact ⟨fun _ _ => rfl, fun _ _ => rfl, id⟩
  | succ n ih =>
    intro j c m hc hw
    obtain ⟨f1, f2, f3⟩ := add_digit (hw (off + j)) (ha.getD j) hc
    have hne : a.getD j 0 ≠ W64 - 1 := by
      rw [List.getD_eq_getElem?_getD]
      rcases Nat.lt_or_ge j a.length with c | c
      · rw [List.getElem?_eq_getElem c]
        exact hmax _ (List.getElem_mem c)
      · rw [List.getElem?_eq_none c]
        decide
    have f4 := (f3.resolve_left fun h => hne h.1).2
    have e : addM (.own a) off (n + 1) j c m =
        let v := w64 (m (off + j) + a.getD j 0 + c)
        addM (.own a) off n (j + 1) (b2n (v < m (off + j))) (put m (off + j) v) := by rw [addM]; rfl
    rw [e]
    clear e f3
    dsimp only
    generalize w64 (m (off + j) + a.getD j 0 + c) = v at *
    generalize b2n (v < m (off + j)) = c' at *
    obtain ⟨o, i2, i3⟩ := ih (j + 1) c' (put m (off + j) v) f2 (fun k => by unfold put; split; exact f1; exact hw k)
    rw [show off + (j + 1) = off + j + 1 by omega] at o i3
    rw [show off + j + 1 + n = off + j + (n + 1) by omega] at o
    rw [put_above] at i3
    have hat := put_at o
    generalize addM (.own a) off n (j + 1) c' (put m (off + j) v) = r at *
    refine ⟨put_only f1 o (by omega), i2, ?_⟩
    rw [mval, mval, mval, hat, Nat.pow_succ]
    have := step_add (W := W64) (P := W64 ^ n) (v := v) (c' := c') (x := m (off + j) + a.getD j 0) (c := c) (A := mval r.1 (off + j + 1) n)
      (r := r.2) (L := mval m (off + j + 1) n + mval (fun k => a.getD k 0) (j + 1) n) f4 i3
    rw [Nat.mul_add W64 (mval m (off + j + 1) n)] at this
    generalize W64 * mval m (off + j + 1) n = z1 at *
    generalize W64 * mval (fun k => a.getD k 0) (j + 1) n = z2 at *
    generalize W64 * mval r.1 (off + j + 1) n = z3 at *
    generalize W64 ^ n * W64 * r.2 = z4 at *
    generalize a.getD j 0 = z5 at *
    omega

theorem mval_whole (a : List Nat) : mval (fun k => a.getD k 0) 0 a.length = val a := by
  rw [mval_list a a.length 0 (by omega), List.drop_zero, List.take_length]

/-- After a row has been stored at `off` with its carry above it. -/
theorem row_done {m m' : Nat → Nat} {off n c V : Nat} (o : Only m m' off (off + n)) (h : mval m' off n + W64 ^ n * c = V) :
    mval (put m' (off + n) c) 0 (off + n + 1) = mval m 0 off + W64 ^ off * V := by
  rw [show off + n + 1 = off + (n + 1) by omega, mval_add, Nat.zero_add, mval_add _ n off 1]
  have e1 : mval (put m' (off + n) c) 0 off = mval m 0 off :=
    mval_congr off 0 fun k _ h2 => by rw [put, if_neg (by omega), o.low k (by omega)]
  have e2 : mval (put m' (off + n) c) off n = mval m' off n :=
    mval_congr n off fun k _ h2 => by rw [put, if_neg (by omega)]
  have e3 : mval (put m' (off + n) c) (off + n) 1 = c := by
    rw [mval, mval, put, if_pos rfl, Nat.mul_zero, Nat.add_zero]
  rw [e1, e2, e3, h]

theorem mulRow0_ok (a b : List Nat) (ha : Limbs a) (hb : Limbs b) (m : Nat → Nat) (hm : ∀ k, m k < W64) :
    mval (mulRow0 (.own a) (.own b) a.length m) 0 (a.length + 1) = val a * b.getD 0 0 ∧
    ∀ k, mulRow0 (.own a) (.own b) a.length m k < W64 := by
  have e : mulRow0 (.own a) (.own b) a.length m =
      let r := if b.getD 0 0 > 1 then muliM (.own a) (b.getD 0 0) a.length 0 0 m
        else (fillM (if b.getD 0 0 ≠ 0 then (fun k => a.getD k 0) else fun _ => 0) a.length m, 0)
      put r.1 a.length r.2 := rfl
  rw [e]
  clear e
  dsimp only
  by_cases c1 : b.getD 0 0 > 1
  · rw [if_pos c1]
    obtain ⟨o, i2, i3⟩ := muliM_ok a ha _ (hb.getD 0) a.length 0 0 m (by decide)
    rw [Nat.zero_add] at o
    rw [mval_whole, Nat.add_zero] at i3
    have := row_done (off := 0) (n := a.length) (by rw [Nat.zero_add]; exact o) i3
    refine ⟨?_, fun k => ?_⟩
    · simpa [mval] using this
    · unfold put; split
      · exact i2
      · exact o.words hm k
  · rw [if_neg c1]
    have hfin : ∀ f : Nat → Nat, mval (put (fillM f a.length m) a.length 0) 0 (a.length + 1) = mval f 0 a.length := by
      intro f
      rw [mval_add, mval, mval, Nat.zero_add, put, if_pos rfl]
      simp only [Nat.mul_zero, Nat.add_zero]
      exact mval_congr _ _ fun k _ h2 => by rw [put, if_neg (by omega), fillM, if_pos (by omega)]
    have hz : ∀ n off, mval (fun _ => 0) off n = 0 := by
      intro n
      induction n with
      | zero => intro off; rfl
      | succ n ih => intro off; rw [mval, ih, Nat.mul_zero]
    have hwd : ∀ f : Nat → Nat, (∀ k, f k < W64) → ∀ k, put (fillM f a.length m) a.length 0 k < W64 := by
      intro f hf k
      unfold put fillM; split
      · decide
      · split
        · exact hf k
        · exact hm k
    by_cases c2 : b.getD 0 0 ≠ 0
    · rw [if_pos c2]
      refine ⟨?_, hwd _ fun k => ha.getD k⟩
      · rw [hfin]
        have : b.getD 0 0 = 1 := by omega
        rw [this, Nat.mul_one]
        exact mval_whole a
    · rw [if_neg c2]
      refine ⟨?_, hwd _ fun k => by decide⟩
      · rw [hfin, hz]
        have : b.getD 0 0 = 0 := by omega
        rw [this, Nat.mul_zero]

theorem mulRow_ok (a b : List Nat) (ha : Limbs a) (hb : Limbs b) (i : Nat) (hg : b.getD i 0 = 1 → ∀ x, x ∈ a → x ≠ W64 - 1)
    (m : Nat → Nat) (hm : ∀ k, m k < W64) :
    mval (mulRow (.own a) (.own b) a.length i m) 0 (i + a.length + 1) = mval m 0 (i + a.length) + W64 ^ i * (val a * b.getD i 0) ∧
    ∀ k, mulRow (.own a) (.own b) a.length i m k < W64 := by
  have e : mulRow (.own a) (.own b) a.length i m =
      let r := if b.getD i 0 > 1 then maciM (.own a) i (b.getD i 0) a.length 0 0 m
        else if b.getD i 0 ≠ 0 then addM (.own a) i a.length 0 0 m
        else (m, 0)
      put r.1 (i + a.length) r.2 := rfl
  rw [e]
  clear e
  dsimp only
  have split3 : ∀ m : Nat → Nat, mval m 0 (i + a.length) = mval m 0 i + W64 ^ i * mval m i a.length := by
    intro m
    rw [mval_add, Nat.zero_add]
  by_cases c1 : b.getD i 0 > 1
  · rw [if_pos c1]
    obtain ⟨o, i2, i3⟩ := maciM_ok a ha i _ (hb.getD i) a.length 0 0 m (by decide) hm
    rw [mval_whole, Nat.add_zero] at i3
    rw [Nat.add_zero] at o i3
    refine ⟨?_, fun k => ?_⟩
    · rw [row_done o i3, split3 m, Nat.mul_add, Nat.add_assoc]
    · unfold put; split
      · exact i2
      · exact o.words hm k
  · rw [if_neg c1]
    by_cases c2 : b.getD i 0 ≠ 0
    · rw [if_pos c2]
      have h1 : b.getD i 0 = 1 := by omega
      obtain ⟨o, i2, i3⟩ := addM_ok a ha (hg h1) i a.length 0 0 m (by decide) hm
      rw [mval_whole, Nat.add_zero] at i3
      rw [Nat.add_zero] at o i3
      refine ⟨?_, fun k => ?_⟩
      · rw [row_done o i3, split3 m, h1, Nat.mul_one, Nat.mul_add, Nat.add_assoc]
      · unfold put; split
        · exact Nat.lt_of_le_of_lt i2 (by decide)
        · exact o.words hm k
    · rw [if_neg c2]
      have h0 : b.getD i 0 = 0 := by omega
      refine ⟨?_, fun k => ?_⟩
      · rw [row_done (m := m) (V := mval m i a.length) ⟨fun _ _ => rfl, fun _ _ => rfl, id⟩ (by rw [Nat.mul_zero, Nat.add_zero]),
          split3 m, h0, Nat.mul_zero, Nat.mul_zero, Nat.add_zero]
      · unfold put; split
        · exact (by decide : 0 < W64)
        · exact hm k

theorem mulRows_ok (a b : List Nat) (ha : Limbs a) (hb : Limbs b) (hg : ∀ i, 1 ≤ i → b.getD i 0 = 1 → ∀ x, x ∈ a → x ≠ W64 - 1) (n : Nat) :
    ∀ i m, 1 ≤ i → (∀ k, m k < W64) → mval m 0 (i + a.length) = val a * val (b.take i) →
      mval (mulRows (.own a) (.own b) a.length n i m) 0 (i + n + a.length) = val a * val (b.take (i + n)) ∧
      ∀ k, mulRows (.own a) (.own b) a.length n i m k < W64 := by
  induction n with
  | zero => intro i m _ hm h; exact ⟨h, hm⟩
  | succ n ih =>
    intro i m hi hm h
    obtain ⟨r1, r2⟩ := mulRow_ok a b ha hb i (hg i hi) m hm
    rw [mulRows]
    have := ih (i + 1) _ (by omega) r2 (by
      rw [show i + 1 + a.length = i + a.length + 1 by omega, r1, h, val_take_succ, Nat.mul_add]
      congr 1
      rw [Nat.mul_left_comm])
    rw [show i + 1 + n = i + (n + 1) by omega] at this
    exact this

/-- The product of two arrays in blocks of their own: exact unless a row for the limb 1 runs into a lost carry. -/
theorem mpaMul_ok (a b : List Nat) (ha : Limbs a) (hb : Limbs b) (hne : b ≠ [])
    (hg : (∀ i, 1 ≤ i → b.getD i 0 ≠ 1) ∨ ∀ x, x ∈ a → x ≠ W64 - 1) (m : Nat → Nat) (hm : ∀ k, m k < W64) :
    val (mpaMul (.own a) (.own b) a.length b.length m) = val a * val b ∧ Limbs (mpaMul (.own a) (.own b) a.length b.length m) ∧
      (mpaMul (.own a) (.own b) a.length b.length m).length = a.length + b.length := by
  have hl : 0 < b.length := List.length_pos_iff.2 hne
  obtain ⟨r1, r2⟩ := mulRow0_ok a b ha hb m hm
  have hg' : ∀ i, 1 ≤ i → b.getD i 0 = 1 → ∀ x, x ∈ a → x ≠ W64 - 1 := fun i hi h1 =>
    hg.elim (fun h => absurd h1 (h i hi)) id
  have h0 : val (b.take 1) = b.getD 0 0 := by
    rw [val_take_succ b 0]; simp [val]
  obtain ⟨q1, q2⟩ := mulRows_ok a b ha hb hg' (b.length - 1) 1 _ (Nat.le_refl _) r2 (by rw [h0, Nat.add_comm 1]; exact r1)
  rw [show 1 + (b.length - 1) = b.length by omega, List.take_length, Nat.add_comm b.length] at q1
  unfold mpaMul
  refine ⟨by rw [mval_range, q1], ?_, by simp⟩
  intro x hx
  obtain ⟨k, _, e⟩ := List.mem_map.1 hx
  exact e ▸ q2 k

end Bfdev.Mpi

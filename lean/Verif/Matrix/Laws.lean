import Verif.Matrix.Props
/-!
C138: matrix programs that are equal by the laws of algebra end with equal matrices.
-/
namespace Bfdev.Matrix

theorem Is.unique {m m' : Mat} {r c : Nat} {f g : Nat → Nat → Word} (h : Is m r c f) (h' : Is m' r c g) (e : ∀ i j, i < r → j < c → f i j = g i j) : m = m' := by
  obtain ⟨a1, a2, a3, a4⟩ := h
  obtain ⟨b1, b2, b3, b4⟩ := h'
  have hd : m.data = m'.data := by
    apply List.ext_getElem?
    intro k
    by_cases hk : k < r * c
    · obtain ⟨i, j, hi, hj, rfl⟩ := flat_surj hk
      rw [a4 i j hi hj, b4 i j hi hj, e i j hi hj]
    · rw [List.getElem?_eq_none (by omega), List.getElem?_eq_none (by omega)]
  cases m; cases m'
  simp only at a1 a2 b1 b2 hd
  rw [a1, a2, b1, b2, hd]

theorem sum_congr {n : Nat} {f g : Nat → Word} (h : ∀ i, i < n → f i = g i) : sum n f = sum n g := by
  induction n with
  | zero => rfl
  | succ n ih => rw [sum_succ, sum_succ, ih fun i hi => h i (by omega), h n (by omega)]

theorem add4 (a b c d : Word) : (a + b) + (c + d) = (a + c) + (b + d) := by
  rw [BitVec.add_assoc, ← BitVec.add_assoc b, BitVec.add_comm b c, BitVec.add_assoc c, ← BitVec.add_assoc]

theorem sum_add (n : Nat) (f g : Nat → Word) : sum n (fun i => f i + g i) = sum n f + sum n g := by
  induction n with
  | zero => rfl
  | succ n ih => rw [sum_succ, sum_succ, sum_succ, ih, add4]

theorem mul_sum (n : Nat) (x : Word) (f : Nat → Word) : x * sum n f = sum n fun i => x * f i := by
  induction n with
  | zero => exact BitVec.mul_zero
  | succ n ih => rw [sum_succ, sum_succ, BitVec.mul_add, ih]

theorem sum_mul (n : Nat) (x : Word) (f : Nat → Word) : sum n f * x = sum n fun i => f i * x := by
  induction n with
  | zero => exact BitVec.zero_mul
  | succ n ih => rw [sum_succ, sum_succ, BitVec.add_mul, ih]

theorem sum_zero (n : Nat) : sum n (fun _ => 0) = 0 := by
  induction n with
  | zero => rfl
  | succ n ih => rw [sum_succ, ih]; rfl

theorem sum_swap (m n : Nat) (f : Nat → Nat → Word) : sum m (fun i => sum n fun j => f i j) = sum n fun j => sum m fun i => f i j := by
  induction m with
  | zero => exact (sum_zero n).symm
  | succ m ih => rw [sum_succ, ih, ← sum_add]; rfl

/-- **C138.** `(A · B) · C = A · (B · C)`: two programs that compute the product of three matrices in either order, into different destinations, end
with the same matrix. -/
theorem product_assoc (st : Store) (a b c p q u v r k l s : Nat) (f g h : Nat → Nat → Word) (j1 j2 j3 j4 j5 j6 j7 j8 : Nat → Word)
    (ha : Is (st a) r k f) (hb : Is (st b) k l g) (hc : Is (st c) l s h) (h1 : r * l < 4294967296) (h2 : r * s < 4294967296) (h3 : k * s < 4294967296)
    (hp : p ≠ a ∧ p ≠ b ∧ p ≠ c) (hq : q ≠ a ∧ q ≠ b ∧ q ≠ c ∧ q ≠ u ∧ q ≠ v) (hu : u ≠ a) :
    ∃ s1 s2 s3 s4, mul st p a b (some j1) (some j2) = some (0, s1) ∧ mul s1 q p c (some j3) (some j4) = some (0, s2) ∧
      mul s2 u b c (some j5) (some j6) = some (0, s3) ∧ mul s3 v a u (some j7) (some j8) = some (0, s4) ∧ s4 q = s4 v := by
  obtain ⟨s1, e1, i1, k1⟩ := mul_correct st p a b r k l f g j1 j2 ha hb h1
  obtain ⟨s2, e2, i2, k2⟩ := mul_correct s1 q p c r l s _ h j3 j4 i1 (by rw [k1 c hp.2.2.symm]; exact hc) h2
  have hb2 : Is (s2 b) k l g := by rw [k2 b hq.2.1.symm, k1 b hp.2.1.symm]; exact hb
  have hc2 : Is (s2 c) l s h := by rw [k2 c hq.2.2.1.symm, k1 c hp.2.2.symm]; exact hc
  obtain ⟨s3, e3, i3, k3⟩ := mul_correct s2 u b c k l s g h j5 j6 hb2 hc2 h3
  have ha3 : Is (s3 a) r k f := by rw [k3 a hu.symm, k2 a hq.1.symm, k1 a hp.1.symm]; exact ha
  obtain ⟨s4, e4, i4, k4⟩ := mul_correct s3 v a u r k s f _ j7 j8 ha3 i3 h2
  refine ⟨s1, s2, s3, s4, e1, e2, e3, e4, ?_⟩
  rw [k4 q hq.2.2.2.2, k3 q hq.2.2.2.1]
  refine i2.unique i4 fun i j _ _ => ?_
  rw [sum_congr fun y _ => sum_mul k (h y j) _, sum_swap]
  refine sum_congr fun y _ => ?_
  rw [mul_sum]
  exact sum_congr fun z _ => BitVec.mul_assoc _ _ _

/-- **C138.** `A · (B + C) = A · B + A · C`. -/
theorem product_add (st : Store) (a b c p q u v w r k s : Nat) (f g h : Nat → Nat → Word) (j1 j2 j3 j4 j5 j6 j7 j8 : Nat → Word)
    (ha : Is (st a) r k f) (hb : Is (st b) k s g) (hc : Is (st c) k s h) (h1 : r * s < 4294967296) (h2 : k * s < 4294967296)
    (hp : p ≠ a ∧ p ≠ b ∧ p ≠ c) (hq : q ≠ a ∧ q ≠ b ∧ q ≠ c ∧ q ≠ u ∧ q ≠ v ∧ q ≠ w) (hu : u ≠ a ∧ u ≠ c ∧ u ≠ v) :
    ∃ s1 s2 s3 s4 s5, add st p b c (some j1) = some (0, s1) ∧ mul s1 q a p (some j2) (some j3) = some (0, s2) ∧
      mul s2 u a b (some j4) (some j5) = some (0, s3) ∧ mul s3 v a c (some j6) (some j7) = some (0, s4) ∧
      add s4 w u v (some j8) = some (0, s5) ∧ s5 q = s5 w := by
  obtain ⟨s1, e1, i1, k1⟩ := add_correct st p b c k s g h j1 hb hc h2
  obtain ⟨s2, e2, i2, k2⟩ := mul_correct s1 q a p r k s f _ j2 j3 (by rw [k1 a hp.1.symm]; exact ha) i1 h1
  have ha2 : Is (s2 a) r k f := by rw [k2 a hq.1.symm, k1 a hp.1.symm]; exact ha
  have hb2 : Is (s2 b) k s g := by rw [k2 b hq.2.1.symm, k1 b hp.2.1.symm]; exact hb
  have hc2 : Is (s2 c) k s h := by rw [k2 c hq.2.2.1.symm, k1 c hp.2.2.symm]; exact hc
  obtain ⟨s3, e3, i3, k3⟩ := mul_correct s2 u a b r k s f g j4 j5 ha2 hb2 h1
  obtain ⟨s4, e4, i4, k4⟩ := mul_correct s3 v a c r k s f h j6 j7 (by rw [k3 a hu.1.symm]; exact ha2) (by rw [k3 c hu.2.1.symm]; exact hc2) h1
  obtain ⟨s5, e5, i5, k5⟩ := add_correct s4 w u v r s _ _ j8 (by rw [k4 u hu.2.2]; exact i3) i4 h1
  refine ⟨s1, s2, s3, s4, s5, e1, e2, e3, e4, e5, ?_⟩
  rw [k5 q hq.2.2.2.2.2, k4 q hq.2.2.2.2.1, k3 q hq.2.2.2.1]
  refine i2.unique i5 fun i j _ _ => ?_
  rw [← sum_add]
  exact sum_congr fun y _ => BitVec.mul_add

/-- **C138.** `A + B = B + A`, and `(A + B) - B = A`: the second also in place. -/
theorem add_laws (st : Store) (a b p q r c : Nat) (f g : Nat → Nat → Word) (j1 j2 : Nat → Word) (ha : Is (st a) r c f) (hb : Is (st b) r c g)
    (hsz : r * c < 4294967296) (hp : p ≠ b) (hpa : p ≠ a) (hpq : p ≠ q) (hab : a ≠ b) :
    (∃ s1 s2, add st p a b (some j1) = some (0, s1) ∧ add s1 q b a (some j2) = some (0, s2) ∧ s2 p = s2 q) ∧
    (∃ s1 s2, add st a a b (some j1) = some (0, s1) ∧ sub s1 a a b (some j2) = some (0, s2) ∧ s2 a = st a) := by
  constructor
  · obtain ⟨s1, e1, i1, k1⟩ := add_correct st p a b r c f g j1 ha hb hsz
    obtain ⟨s2, e2, i2, k2⟩ := add_correct s1 q b a r c g f j2 (by rw [k1 b hp.symm]; exact hb) (by rw [k1 a hpa.symm]; exact ha) hsz
    refine ⟨s1, s2, e1, e2, ?_⟩
    rw [k2 p hpq]
    exact i1.unique i2 fun i j _ _ => BitVec.add_comm _ _
  · obtain ⟨s1, e1, i1, k1⟩ := add_correct st a a b r c f g j1 ha hb hsz
    obtain ⟨s2, e2, i2, -⟩ := sub_correct s1 a a b r c _ g j2 i1 (by rw [k1 b hab.symm]; exact hb) hsz
    exact ⟨s1, s2, e1, e2, i2.unique ha fun i j _ _ => BitVec.add_sub_cancel _ _⟩

/-- Not vacuous: `(1 2; 3 4)`, `(5 6; 7 8)` and the second once more. -/
example : ((mul exStore 4 0 1 (some fun _ => 9) none).bind fun x => (mul x.2 5 4 1 (some fun _ => 9) none).map fun y => y.2 5) = some ⟨2, 2, [249, 290, 565, 658]⟩ ∧
    ((mul exStore 6 1 1 (some fun _ => 9) none).bind fun x => (mul x.2 7 0 6 (some fun _ => 9) none).map fun y => y.2 7) = some ⟨2, 2, [249, 290, 565, 658]⟩ := by
  decide +kernel
example : ∃ f, Is (exStore 1) 2 2 f := by
  refine ⟨fun i j => BitVec.ofNat 64 (i * 2 + j + 5), rfl, rfl, rfl, fun i j hi hj => ?_⟩
  have hi : i = 0 ∨ i = 1 := by omega
  have hj : j = 0 ∨ j = 1 := by omega
  rcases hi with rfl | rfl <;> rcases hj with rfl | rfl <;> rfl

end Bfdev.Matrix

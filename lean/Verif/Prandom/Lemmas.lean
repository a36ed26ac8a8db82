import Verif.Prandom.Model
import Verif.Prandom.Tables

/-!
# Prandom: linear algebra over bits

A 32-column bit matrix is a list of numbers; its product with a vector is the exclusive or of the columns selected by the bits.
-/

namespace Bfdev.Prandom

/-- Matrix times vector. -/
def ap : List Nat → Nat → Nat
  | [], _ => 0
  | m :: ms, x => (if x % 2 = 1 then m else 0) ^^^ ap ms (x / 2)

/-- Matrix product. -/
def mul (A B : List Nat) : List Nat := B.map (ap A)

/-- The identity on the bits of a mask. -/
def maskId (c : Nat) : List Nat := (List.range 32).map (fun i => 2 ^ i &&& c)

/-- `A` to the power given by bits, lowest first. -/
def powBits (c : Nat) (A : List Nat) : List Bool → List Nat
  | [] => maskId c
  | true :: bs => mul A (powBits c (mul A A) bs)
  | false :: bs => powBits c (mul A A) bs

/-- The number of a list of bits, lowest first. -/
def val : List Bool → Nat
  | [] => 0
  | b :: bs => (if b then 1 else 0) + 2 * val bs

/-- Iterated application. -/
def iter {α : Type} (f : α → α) : Nat → α → α
  | 0, x => x
  | n + 1, x => iter f n (f x)

theorem iter_add {α : Type} (f : α → α) (m : Nat) : ∀ (n : Nat) (x : α), iter f (m + n) x = iter f n (iter f m x) := by
  induction m with
  | zero => intro n x; simp [iter]
  | succ m ih => intro n x; rw [show m + 1 + n = (m + n) + 1 by omega, iter, iter, ih]

theorem iter_succ' {α : Type} (f : α → α) (n : Nat) (x : α) : iter f (n + 1) x = f (iter f n x) := by
  rw [iter_add f n 1 x]; rfl

theorem xor_mod_two (x y : Nat) : (x ^^^ y) % 2 = 1 ↔ ¬(x % 2 = 1 ↔ y % 2 = 1) := by
  have h := Nat.testBit_xor x y 0
  simp only [Nat.testBit_zero] at h
  rw [← decide_eq_true_iff (p := (x ^^^ y) % 2 = 1), h]
  by_cases hx : x % 2 = 1 <;> by_cases hy : y % 2 = 1 <;> simp [hx, hy]

theorem xor_div_two (x y : Nat) : (x ^^^ y) / 2 = x / 2 ^^^ y / 2 := by
  apply Nat.eq_of_testBit_eq
  intro i
  simp only [Nat.testBit_xor, Nat.testBit_div_two]

theorem xor_swap4 (a b c d : Nat) : (a ^^^ b) ^^^ (c ^^^ d) = (a ^^^ c) ^^^ (b ^^^ d) := by
  rw [Nat.xor_assoc, ← Nat.xor_assoc b, Nat.xor_comm b c, Nat.xor_assoc c, ← Nat.xor_assoc]

theorem ap_xor : ∀ (A : List Nat) (x y : Nat), ap A (x ^^^ y) = ap A x ^^^ ap A y
  | [], _, _ => by simp [ap]
  | m :: ms, x, y => by
    simp only [ap, xor_div_two, ap_xor ms]
    rw [xor_swap4]
    congr 1
    by_cases hx : x % 2 = 1 <;> by_cases hy : y % 2 = 1
    · rw [if_neg (by rw [xor_mod_two]; simp [hx, hy]), if_pos hx, if_pos hy, Nat.xor_self]
    · rw [if_pos (by rw [xor_mod_two]; simp [hx, hy]), if_pos hx, if_neg hy, Nat.xor_zero]
    · rw [if_pos (by rw [xor_mod_two]; simp [hx, hy]), if_neg hx, if_pos hy, Nat.zero_xor]
    · rw [if_neg (by rw [xor_mod_two]; simp [hx, hy]), if_neg hx, if_neg hy, Nat.xor_zero]

theorem ap_zero : ∀ A : List Nat, ap A 0 = 0
  | [] => rfl
  | m :: ms => by simp [ap, ap_zero ms]

theorem ap_mul (A : List Nat) : ∀ (B : List Nat) (x : Nat), ap (mul A B) x = ap A (ap B x)
  | [], x => by simp [mul, ap, ap_zero]
  | b :: bs, x => by
    simp only [mul, List.map_cons, ap]
    rw [show bs.map (ap A) = mul A bs from rfl, ap_mul A bs, ap_xor]
    congr 1
    split
    · rfl
    · rw [ap_zero]

/-- A linear function is the matrix of its values on the basis. -/
theorem ap_linear (G : Nat → Nat) (h0 : G 0 = 0) (hx : ∀ a b, G (a ^^^ b) = G a ^^^ G b) :
    ∀ (n j x : Nat), x < 2 ^ n → ap ((List.range' j n).map (fun i => G (2 ^ i))) x = G (x * 2 ^ j)
  | 0, j, x, h => by
    have : x = 0 := by simpa using h
    subst this
    simp [ap, h0]
  | n + 1, j, x, h => by
    rw [List.range'_succ, List.map_cons, ap, ap_linear G h0 hx n (j + 1) (x / 2) (by rw [Nat.pow_succ] at h; omega)]
    have e : x * 2 ^ j = (x % 2 * 2 ^ j) ^^^ (x / 2 * 2 ^ (j + 1)) := by
      apply Nat.eq_of_testBit_eq
      intro i
      rw [Nat.testBit_xor, Nat.testBit_mul_two_pow, Nat.testBit_mul_two_pow, Nat.testBit_mul_two_pow]
      by_cases hi : j ≤ i
      · by_cases hi2 : j + 1 ≤ i
        · have e1 : (x % 2).testBit (i - j) = false := by
            apply Nat.testBit_lt_two_pow
            have : 2 ^ 1 ≤ 2 ^ (i - j) := Nat.pow_le_pow_right (by omega) (by omega)
            omega
          simp only [hi, hi2, decide_true, Bool.true_and, e1, Bool.false_xor]
          rw [Nat.testBit_div_two, show i - (j + 1) + 1 = i - j by omega]
        · have : i = j := by omega
          subst this
          simp [Nat.testBit_zero, show ¬i + 1 ≤ i by omega]
      · simp [hi, show ¬j + 1 ≤ i by omega]
    rw [e, hx]
    congr 1
    rcases Nat.mod_two_eq_zero_or_one x with h1 | h1 <;> simp [h1, h0]

/-- The identity on a mask. -/
theorem ap_maskId (c : Nat) (x : Nat) (hx : x < 2 ^ 32) : ap (maskId c) x = x &&& c := by
  have h := ap_linear (fun a => a &&& c) (by simp) (fun a b => Nat.and_xor_distrib_right) 32 0 x hx
  simpa [maskId, List.range_eq_range'] using h

theorem and_le_self (x c : Nat) : x &&& c ≤ x := Nat.and_le_left

/-- A matrix whose columns are below 2^32 maps into 32 bits. -/
theorem ap_lt : ∀ (A : List Nat) (x : Nat), (∀ a ∈ A, a < 2 ^ 32) → ap A x < 2 ^ 32
  | [], _, _ => by simp [ap]
  | m :: ms, x, h => by
    unfold ap
    apply Nat.xor_lt_two_pow
    · split
      · exact h m List.mem_cons_self
      · decide
    · exact ap_lt ms (x / 2) (fun a ha => h a (List.mem_cons_of_mem _ ha))

/-- Iterating a matrix whose range and support lie in the mask. -/
theorem ap_powBits (c : Nat) : ∀ (bs : List Bool) (A : List Nat),
    (∀ x, x < 2 ^ 32 → ap A x < 2 ^ 32) →
    ∀ x, x < 2 ^ 32 → ap (powBits c A bs) x = iter (ap A) (val bs) (x &&& c) 
  | [], A, _, x, hx => by simp [powBits, val, iter, ap_maskId c x hx]
  | b :: bs, A, hA, x, hx => by
    have hA2 : ∀ x, x < 2 ^ 32 → ap (mul A A) x < 2 ^ 32 := by
      intro x hx; rw [ap_mul]; exact hA _ (hA _ hx)
    have ih := ap_powBits c bs (mul A A) hA2 x hx
    have hsq : ∀ (n : Nat) (y : Nat), iter (ap (mul A A)) n y = iter (ap A) (2 * n) y := by
      intro n
      induction n with
      | zero => intro y; rfl
      | succ n ih => intro y; rw [iter, ih, ap_mul]; rfl
    cases b with
    | true =>
      rw [powBits, ap_mul, ih, hsq, ← iter_succ' (ap A)]
      congr 1
      simp [val]; omega
    | false =>
      rw [powBits, ih, hsq]
      congr 1
      simp [val]

/-! ## Orders -/

/-- The iterates that fix a point are closed under the greatest common divisor. -/
theorem fix_gcd {α : Type} (f : α → α) (v : α) : ∀ (m n : Nat), iter f m v = v → iter f n v = v → iter f (Nat.gcd m n) v = v := by
  intro m n
  induction m, n using Nat.gcd.induction with
  | H0 n => intro _ h; simpa using h
  | H1 m n hm ih =>
    intro h1 h2
    rw [Nat.gcd_rec]
    apply ih _ h1
    have hk : ∀ k, iter f (m * k) v = v := by
      intro k
      induction k with
      | zero => rfl
      | succ k ihk => rw [Nat.mul_succ, iter_add, ihk, h1]
    have := Nat.div_add_mod n m
    rw [← this, iter_add, hk] at h2
    exact h2

/-- A number with no divisor but one and itself, above one. -/
def IsPrime (p : Nat) : Prop := 1 < p ∧ ∀ d, d ∣ p → d = 1 ∨ d = p

/-- The product of a list. -/
def prod : List Nat → Nat
  | [] => 1
  | p :: ps => p * prod ps

theorem coprime_of_not_dvd {p m : Nat} (hp : IsPrime p) (h : ¬p ∣ m) : Nat.Coprime m p := by
  rcases hp.2 (Nat.gcd m p) (Nat.gcd_dvd_right m p) with h1 | h1
  · exact h1
  · exact absurd (h1 ▸ Nat.gcd_dvd_left m p) h

/-- A proper divisor of a product of primes divides the product with one of them left out. -/
theorem proper_divisor (ps : List Nat) (N g : Nat) (hps : ∀ p ∈ ps, IsPrime p) (hN : N = prod ps) (hN0 : 0 < N)
    (hg : g ∣ N) (hne : g ≠ N) : ∃ p ∈ ps, p ∣ N ∧ g ∣ N / p := by
  obtain ⟨m, hm⟩ := hg
  have hm1 : m ≠ 1 := by intro h; subst h; simp at hm; exact hne hm.symm
  apply Classical.byContradiction
  intro hno
  have hall : ∀ p ∈ ps, ¬p ∣ m := by
    intro p hp hpm
    apply hno
    obtain ⟨k, hk⟩ := hpm
    have hNp : N = p * (g * k) := by rw [hm, hk, Nat.mul_left_comm]
    have hp0 : 0 < p := by have := (hps p hp).1; omega
    exact ⟨p, hp, ⟨g * k, hNp⟩, ⟨k, by rw [hNp, Nat.mul_div_cancel_left _ hp0]⟩⟩
  have hco : ∀ qs : List Nat, (∀ q ∈ qs, q ∈ ps) → Nat.Coprime m (prod qs) := by
    intro qs
    induction qs with
    | nil => intro _; exact Nat.coprime_one_right m
    | cons q qs ih =>
      intro h
      exact Nat.Coprime.mul_right (coprime_of_not_dvd (hps q (h q List.mem_cons_self)) (hall q (h q List.mem_cons_self)))
        (ih (fun r hr => h r (List.mem_cons_of_mem _ hr)))
  have h1 := hco ps (fun q hq => hq)
  rw [← hN, hm] at h1
  have h2 : m ∣ Nat.gcd m (g * m) := Nat.dvd_gcd (Nat.dvd_refl m) ⟨g, Nat.mul_comm g m⟩
  rw [h1] at h2
  exact hm1 (Nat.dvd_one.1 h2)

/-- Primality by trial division of all smaller numbers. -/
theorem isPrime_small {p : Nat} (h1 : 1 < p) (h : ∀ d, d < p → d ∣ p → d = 1) : IsPrime p := by
  refine ⟨h1, fun d hd => ?_⟩
  by_cases hdp : d < p
  · exact Or.inl (h d hdp hd)
  · exact Or.inr (Nat.le_antisymm (Nat.le_of_dvd (by omega) hd) (by omega))

/-- 2^31 - 1 is prime: no divisor up to its square root. -/
theorem mersenne31 : IsPrime 2147483647 := by
  have hdiv : ∀ i, i < 216 → ∀ j, j < 216 → 216 * i + j < 2 ∨ 2147483647 % (216 * i + j) ≠ 0 := by decide +kernel
  have hno : ∀ d, 2 ≤ d → d ≤ 46340 → ¬d ∣ 2147483647 := by
    intro d h1 h2 hd
    have h := hdiv (d / 216) (by omega) (d % 216) (by omega)
    rw [Nat.div_add_mod] at h
    rcases h with h | h
    · omega
    · exact h (Nat.mod_eq_zero_of_dvd hd)
  refine ⟨by decide, fun d hd => ?_⟩
  obtain ⟨e, he⟩ := hd
  have hd0 : d ≠ 0 := by intro h; subst h; simp at he
  have he0 : e ≠ 0 := by intro h; subst h; simp at he
  by_cases h1 : d = 1
  · exact Or.inl h1
  · by_cases h2 : e = 1
    · right; subst h2; omega
    · exfalso
      by_cases h3 : d ≤ 46340
      · exact hno d (by omega) h3 ⟨e, he⟩
      · by_cases h4 : e ≤ 46340
        · exact hno e (by omega) h4 ⟨d, by rw [he, Nat.mul_comm]⟩
        · have : 46341 * 46341 ≤ d * e := Nat.mul_le_mul (by omega) (by omega)
          omega

/-! ## One component -/

/-- The parameters of a component. -/
structure Par where
  a : Nat
  b : Nat
  c : Nat
  d : Nat

/-- A step of a component. -/
def Par.step (q : Par) (s : U32) : U32 := tausworthe s q.a q.b (BitVec.ofNat 32 q.c) q.d

/-- The step on numbers. -/
def Par.nstep (q : Par) (s : Nat) : Nat := (((s &&& q.c) * 2 ^ q.d) ^^^ (((s * 2 ^ q.a) % 2 ^ 32 ^^^ s) / 2 ^ q.b)) % 2 ^ 32

/-- The matrix of a step on the bits of the mask. -/
def Par.matrix (q : Par) : List Nat := (List.range 32).map (fun i => q.nstep (2 ^ i) &&& q.c)

/-- What the kernel checks about a component: low bits are forgotten, the `N`-th power is the identity on the mask, and for each prime the
power less the identity has an inverse. -/
def Par.check (q : Par) (N : List Bool) (wit : List (Nat × List Bool × List Nat)) : Bool :=
  (List.range 32).all (fun i => q.nstep (2 ^ i) == q.nstep (2 ^ i &&& q.c)) &&
  q.matrix.all (fun a => decide (a < 2 ^ 32)) &&
  powBits q.c q.matrix N == maskId q.c &&
  decide (val N = prod (wit.map (·.1))) &&
  wit.all (fun w => decide (val N = w.1 * val w.2.1) &&
    (mul w.2.2 ((List.zipWith (· ^^^ ·) (powBits q.c q.matrix w.2.1) (maskId q.c))) == maskId q.c))

theorem mul_xor (x y k : Nat) : (x ^^^ y) * 2 ^ k = x * 2 ^ k ^^^ y * 2 ^ k := by
  rw [← Nat.shiftLeft_eq, ← Nat.shiftLeft_eq, ← Nat.shiftLeft_eq, Nat.shiftLeft_xor_distrib]

theorem div_xor (x y k : Nat) : (x ^^^ y) / 2 ^ k = x / 2 ^ k ^^^ y / 2 ^ k := by
  rw [← Nat.shiftRight_eq_div_pow, ← Nat.shiftRight_eq_div_pow, ← Nat.shiftRight_eq_div_pow, Nat.shiftRight_xor_distrib]

theorem mod_xor (x y k : Nat) : (x ^^^ y) % 2 ^ k = x % 2 ^ k ^^^ y % 2 ^ k := Nat.xor_mod_two_pow

theorem nstep_xor (q : Par) (x y : Nat) : q.nstep (x ^^^ y) = q.nstep x ^^^ q.nstep y := by
  unfold Par.nstep
  rw [Nat.and_xor_distrib_right, mul_xor, mul_xor, mod_xor, ← mod_xor (_ ^^^ _), ← mod_xor]
  congr 1
  rw [xor_swap4 ((x &&& q.c) * 2 ^ q.d), ← div_xor]
  congr 2
  rw [mod_xor, xor_swap4]

theorem nstep_zero (q : Par) : q.nstep 0 = 0 := by simp [Par.nstep]

theorem nstep_lt (q : Par) (x : Nat) : q.nstep x < 2 ^ 32 := Nat.mod_lt _ (by decide)

theorem step_toNat (q : Par) (hc : q.c < 2 ^ 32) (s : U32) : (q.step s).toNat = q.nstep s.toNat := by
  unfold Par.step Par.nstep tausworthe
  have hs := s.isLt
  rw [BitVec.toNat_xor, BitVec.toNat_shiftLeft, BitVec.toNat_and, BitVec.toNat_ofNat, Nat.mod_eq_of_lt hc, BitVec.toNat_ushiftRight,
    BitVec.toNat_xor, BitVec.toNat_shiftLeft, mod_xor, Nat.shiftLeft_eq, Nat.shiftLeft_eq, Nat.shiftRight_eq_div_pow]
  congr 1
  symm
  apply Nat.mod_eq_of_lt
  have h1 : (s.toNat * 2 ^ q.a % 2 ^ 32 ^^^ s.toNat) < 2 ^ 32 := Nat.xor_lt_two_pow (Nat.mod_lt _ (by decide)) hs
  exact Nat.lt_of_le_of_lt (Nat.div_le_self _ _) h1

/-- Two linear functions that agree on the basis agree on 32 bits. -/
theorem linear_ext (G H : Nat → Nat) (g0 : G 0 = 0) (h0 : H 0 = 0) (gx : ∀ a b, G (a ^^^ b) = G a ^^^ G b)
    (hx : ∀ a b, H (a ^^^ b) = H a ^^^ H b) (h : ∀ i, i < 32 → G (2 ^ i) = H (2 ^ i)) (x : Nat) (hxx : x < 2 ^ 32) : G x = H x := by
  have e1 := ap_linear G g0 gx 32 0 x hxx
  have e2 := ap_linear H h0 hx 32 0 x hxx
  have : (List.range' 0 32).map (fun i => G (2 ^ i)) = (List.range' 0 32).map (fun i => H (2 ^ i)) := by
    apply List.map_congr_left
    intro i hi
    apply h
    simpa [← List.range_eq_range'] using hi
  rw [this, e2] at e1
  simpa using e1.symm

/-- What a checked component does. -/
theorem component (q : Par) (N : List Bool) (wit : List (Nat × List Bool × List Nat)) (hc : q.c < 2 ^ 32)
    (hcheck : q.check N wit = true) (hps : ∀ w ∈ wit, IsPrime w.1) (hN : 0 < val N) (s : Nat) (hs : s < 2 ^ 32) (hsc : s &&& q.c ≠ 0) :
    (∀ n, iter q.nstep n s &&& q.c ≠ 0) ∧
    (∀ n k, iter q.nstep (n + 1 + k) s = iter q.nstep (n + 1) s ↔ val N ∣ k) := by
  unfold Par.check at hcheck
  simp only [Bool.and_eq_true, List.all_eq_true, beq_iff_eq, decide_eq_true_eq, List.mem_range] at hcheck
  obtain ⟨⟨⟨⟨h1, h2⟩, h3⟩, h4⟩, h5⟩ := hcheck
  -- the step forgets the bits outside the mask
  have hforget : ∀ x, x < 2 ^ 32 → q.nstep x = q.nstep (x &&& q.c) :=
    linear_ext q.nstep (fun x => q.nstep (x &&& q.c)) (nstep_zero q) (by simp [nstep_zero]) (nstep_xor q)
      (fun a b => by simp only [Nat.and_xor_distrib_right, nstep_xor]) h1
  have hM : ∀ x, x < 2 ^ 32 → ap q.matrix x = q.nstep x &&& q.c := by
    intro x hx
    have := ap_linear (fun x => q.nstep x &&& q.c) (by simp [nstep_zero])
      (fun a b => by simp only [nstep_xor, Nat.and_xor_distrib_right]) 32 0 x hx
    simpa [Par.matrix, List.range_eq_range'] using this
  have hMlt : ∀ x, x < 2 ^ 32 → ap q.matrix x < 2 ^ 32 := fun x hx => by
    rw [hM x hx]; exact Nat.lt_of_le_of_lt Nat.and_le_right hc
  have hilt : ∀ n, iter q.nstep n s < 2 ^ 32 := by
    intro n
    cases n with
    | zero => exact hs
    | succ n => rw [iter_succ']; exact nstep_lt _ _
  have hmask : ∀ x, (x &&& q.c) < 2 ^ 32 := fun x => Nat.lt_of_le_of_lt Nat.and_le_right hc
  have hmm : ∀ x, (x &&& q.c) &&& q.c = x &&& q.c := fun x => by rw [Nat.and_assoc, Nat.and_self]
  -- on the mask the iterates are those of the matrix
  have hit : ∀ n, iter q.nstep n s &&& q.c = iter (ap q.matrix) n (s &&& q.c) := by
    intro n
    induction n with
    | zero => rfl
    | succ n ih => rw [iter_succ', iter_succ', ← ih, hM _ (hmask _), ← hforget _ (hilt n)]
  have hfixN : ∀ v, v &&& q.c = v → v < 2 ^ 32 → iter (ap q.matrix) (val N) v = v := by
    intro v hv hlt
    have := ap_powBits q.c N q.matrix hMlt v hlt
    rw [h3, ap_maskId _ _ hlt, hv] at this
    exact this.symm
  have hiter0 : ∀ n, iter (ap q.matrix) n 0 = 0 := by
    intro n
    induction n with
    | zero => rfl
    | succ n ih => rw [iter, ap_zero, ih]
  have hvN : ∀ k v, v &&& q.c = v → v < 2 ^ 32 → iter (ap q.matrix) (val N * k) v = v := by
    intro k v h1 h2
    induction k with
    | zero => rfl
    | succ k ih => rw [Nat.mul_succ, iter_add, ih, hfixN v h1 h2]
  have hA : ∀ n, iter q.nstep n s &&& q.c ≠ 0 := by
    intro n h
    rw [hit n] at h
    apply hsc
    have e : iter (ap q.matrix) (val N * (n + 1)) (s &&& q.c) = s &&& q.c := hvN _ _ (hmm s) (hmask s)
    have : n ≤ val N * (n + 1) := Nat.le_trans (Nat.le_succ n) (Nat.le_mul_of_pos_left _ hN)
    rw [show val N * (n + 1) = n + (val N * (n + 1) - n) by omega, iter_add, h, hiter0] at e
    exact e.symm
  -- no shorter period
  have hord : ∀ v k, v &&& q.c = v → v < 2 ^ 32 → v ≠ 0 → iter (ap q.matrix) k v = v → val N ∣ k := by
    intro v k hv hlt hv0 hk
    have hg := fix_gcd (ap q.matrix) v k (val N) hk (hfixN v hv hlt)
    by_cases hgN : Nat.gcd k (val N) = val N
    · rw [← hgN]; exact Nat.gcd_dvd_left k (val N)
    · exfalso
      obtain ⟨p, hp, hpN, m, hm⟩ := proper_divisor (wit.map (·.1)) (val N) (Nat.gcd k (val N))
        (by intro p hp; obtain ⟨w, hw, rfl⟩ := List.mem_map.1 hp; exact hps w hw) h4 hN (Nat.gcd_dvd_right k (val N)) hgN
      obtain ⟨w, hw, rfl⟩ := List.mem_map.1 hp
      obtain ⟨e1, e2⟩ := h5 w hw
      have hw0 : 0 < w.1 := by have := (hps w hw).1; omega
      have hq : val w.2.1 = val N / w.1 := by rw [e1, Nat.mul_div_cancel_left _ hw0]
      have hfix : iter (ap q.matrix) (val w.2.1) v = v := by
        rw [hq, hm]
        have : ∀ j, iter (ap q.matrix) (Nat.gcd k (val N) * j) v = v := by
          intro j
          induction j with
          | zero => rfl
          | succ j ih => rw [Nat.mul_succ, iter_add, ih, hg]
        exact this m
      have hz : ∀ (A B : List Nat) (x : Nat), A.length = B.length → ap (List.zipWith (· ^^^ ·) A B) x = ap A x ^^^ ap B x := by
        intro A
        induction A with
        | nil => intro B x h; cases B with
          | nil => simp [ap]
          | cons b B => simp at h
        | cons a A ih =>
          intro B x h
          cases B with
          | nil => simp at h
          | cons b B =>
            simp only [List.zipWith_cons_cons, ap]
            rw [ih B (x / 2) (by simpa using h), xor_swap4]
            congr 1
            split
            · rfl
            · simp
      have hlen : (powBits q.c q.matrix w.2.1).length = (maskId q.c).length := by
        have : ∀ (bs : List Bool) (A : List Nat), (powBits q.c A bs).length = 32 := by
          intro bs
          induction bs with
          | nil => intro A; simp [powBits, maskId]
          | cons b bs ih => intro A; cases b <;> simp [powBits, mul, ih]
        rw [this]; simp [maskId]
      have key : ap (maskId q.c) v = 0 := by
        rw [← e2, ap_mul, hz _ _ _ hlen, ap_powBits q.c w.2.1 q.matrix hMlt v hlt, hv, hfix, ap_maskId _ _ hlt, hv, Nat.xor_self, ap_zero]
      rw [ap_maskId _ _ hlt, hv] at key
      exact hv0 key
  refine ⟨hA, fun n k => ⟨fun h => ?_, fun h => ?_⟩⟩
  · have h' : iter q.nstep (n + 1 + k) s &&& q.c = iter q.nstep (n + 1) s &&& q.c := by rw [h]
    rw [iter_add q.nstep (n + 1) k s] at h'
    apply hord (iter q.nstep (n + 1) s &&& q.c) k (hmm _) (hmask _) (hA _)
    have e := hit (n + 1 + k)
    rw [iter_add (ap q.matrix), ← hit (n + 1)] at e
    rw [← e, iter_add q.nstep (n + 1) k s]
    exact h'
  · obtain ⟨j, rfl⟩ := h
    have e : iter q.nstep (n + val N * j) s &&& q.c = iter q.nstep n s &&& q.c := by
      rw [hit, hit, iter_add (ap q.matrix), hvN j _ ?_ ?_]
      · rw [← hit]; exact hmm _
      · rw [← hit]; exact hmask _
    rw [show n + 1 + val N * j = (n + val N * j) + 1 by omega, iter_succ', iter_succ', hforget _ (hilt _), e, ← hforget _ (hilt _)]

end Bfdev.Prandom

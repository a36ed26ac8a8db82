import Verif.Prandom.Lemmas

/-!
# Prandom: properties (C57, C71)
-/

namespace Bfdev.Prandom

/-! ## The four components -/

def par1 : Par := ⟨6, 13, 4294967294, 18⟩
def par2 : Par := ⟨2, 27, 4294967288, 2⟩
def par3 : Par := ⟨13, 21, 4294967280, 7⟩
def par4 : Par := ⟨3, 12, 4294967168, 13⟩

def bits (n : Nat) : List Bool := List.replicate n true

theorem check1 : par1.check (bits 31) wit1 = true := by decide +kernel
theorem check2 : par2.check (bits 29) wit2 = true := by decide +kernel
theorem check3 : par3.check (bits 28) wit3 = true := by decide +kernel
theorem check4 : par4.check (bits 25) wit4 = true := by decide +kernel

theorem primes1 : ∀ w ∈ wit1, IsPrime w.1 := by
  simp only [wit1, List.mem_cons, List.not_mem_nil, or_false, forall_eq]
  exact mersenne31

theorem primes2 : ∀ w ∈ wit2, IsPrime w.1 := by
  simp only [wit2, List.mem_cons, List.not_mem_nil, or_false, forall_eq_or_imp, forall_eq]
  refine ⟨?_, ?_, ?_⟩ <;> exact isPrime_small (by decide +kernel) (by decide +kernel)

theorem primes3 : ∀ w ∈ wit3, IsPrime w.1 := by
  simp only [wit3, List.mem_cons, List.not_mem_nil, or_false, forall_eq_or_imp, forall_eq]
  refine ⟨?_, ?_, ?_, ?_, ?_, ?_⟩ <;> exact isPrime_small (by decide +kernel) (by decide +kernel)

theorem primes4 : ∀ w ∈ wit4, IsPrime w.1 := by
  simp only [wit4, List.mem_cons, List.not_mem_nil, or_false, forall_eq_or_imp, forall_eq]
  refine ⟨?_, ?_, ?_⟩ <;> exact isPrime_small (by decide +kernel) (by decide +kernel)

theorem steps_add (m : Nat) : ∀ (n : Nat) (p : State), steps (m + n) p = steps n (steps m p) := by
  induction m with
  | zero => intro n p; simp [steps]
  | succ m ih => intro n p; rw [show m + 1 + n = (m + n) + 1 by omega, steps, steps, ih]

theorem steps_comp : ∀ (n : Nat) (p : State),
    (steps n p).s1.toNat = iter par1.nstep n p.s1.toNat ∧ (steps n p).s2.toNat = iter par2.nstep n p.s2.toNat ∧
    (steps n p).s3.toNat = iter par3.nstep n p.s3.toNat ∧ (steps n p).s4.toNat = iter par4.nstep n p.s4.toNat := by
  intro n
  induction n with
  | zero => intro p; exact ⟨rfl, rfl, rfl, rfl⟩
  | succ n ih =>
    intro p
    obtain ⟨h1, h2, h3, h4⟩ := ih (step p)
    have e1 := step_toNat par1 (by decide) p.s1
    have e2 := step_toNat par2 (by decide) p.s2
    have e3 := step_toNat par3 (by decide) p.s3
    have e4 := step_toNat par4 (by decide) p.s4
    rw [steps, iter, iter, iter, iter, h1, h2, h3, h4]
    refine ⟨?_, ?_, ?_, ?_⟩
    · rw [← e1]; rfl
    · rw [← e2]; rfl
    · rw [← e3]; rfl
    · rw [← e4]; rfl

/-- A number is at least 2^k exactly when it has a bit from `k` on. -/
theorem and_high (x k : Nat) (hx : x < 2 ^ 32) (hk : k ≤ 32) : x &&& (2 ^ 32 - 2 ^ k) = 2 ^ k * (x / 2 ^ k) := by
  apply Nat.eq_of_testBit_eq
  intro i
  rw [Nat.testBit_and, Nat.mul_comm, Nat.testBit_mul_two_pow, Nat.testBit_div_two_pow]
  by_cases hi : k ≤ i
  · rw [show i - k + k = i by omega]
    by_cases hi2 : i < 32
    · have : (2 ^ 32 - 2 ^ k).testBit i = true := by
        have e : 2 ^ 32 - 2 ^ k = (2 ^ (32 - k) - 1) * 2 ^ k := by
          rw [Nat.sub_mul, ← Nat.pow_add, Nat.one_mul, show 32 - k + k = 32 by omega]
        rw [e, Nat.testBit_mul_two_pow, Nat.testBit_two_pow_sub_one]
        simp [hi]; omega
      simp [this, hi]
    · have : x.testBit i = false := Nat.testBit_lt_two_pow (Nat.lt_of_lt_of_le hx (Nat.pow_le_pow_right (by omega) (by omega)))
      simp [this]
  · have : (2 ^ 32 - 2 ^ k).testBit i = false := by
      have e : 2 ^ 32 - 2 ^ k = (2 ^ (32 - k) - 1) * 2 ^ k := by
        rw [Nat.sub_mul, ← Nat.pow_add, Nat.one_mul, show 32 - k + k = 32 by omega]
      rw [e, Nat.testBit_mul_two_pow]
      simp [hi]
    simp [this, hi]

theorem and_high_ne (x k : Nat) (hx : x < 2 ^ 32) (hk : k ≤ 32) : x &&& (2 ^ 32 - 2 ^ k) ≠ 0 ↔ 2 ^ k ≤ x := by
  rw [and_high x k hx hk]
  have hp : 0 < 2 ^ k := Nat.two_pow_pos k
  rw [← Nat.pos_iff_ne_zero, Nat.mul_pos_iff_of_pos_left hp, Nat.div_pos_iff]
  exact ⟨fun h => h.2, fun h => ⟨hp, h⟩⟩

/-- The states a component cannot leave again are those below its threshold. -/
structure Alive (p : State) : Prop where
  a1 : 2 ≤ p.s1.toNat
  a2 : 8 ≤ p.s2.toNat
  a3 : 16 ≤ p.s3.toNat
  a4 : 128 ≤ p.s4.toNat

theorem setup_alive (s : BitVec 64) : Alive (setup s) := by
  have h : ∀ x m : U32, m.toNat ≤ 128 → m.toNat ≤ (seedMinimum x m).toNat := by
    intro x m hm
    unfold seedMinimum
    split
    · rename_i hx
      rw [BitVec.lt_def] at hx
      rw [BitVec.toNat_add]; omega
    · rename_i hx
      rw [BitVec.lt_def] at hx
      omega
  exact ⟨h _ 2 (by decide), h _ 8 (by decide), h _ 16 (by decide), h _ 128 (by decide)⟩

theorem init_alive : Alive init := ⟨by decide, by decide, by decide, by decide⟩

theorem comp1 (s : U32) (h : 2 ≤ s.toNat) : (∀ n, iter par1.nstep n s.toNat &&& par1.c ≠ 0) ∧
    (∀ n k, iter par1.nstep (n + 1 + k) s.toNat = iter par1.nstep (n + 1) s.toNat ↔ val (bits 31) ∣ k) :=
  component par1 (bits 31) wit1 (by decide) check1 primes1 (by decide +kernel) s.toNat s.isLt
  ((and_high_ne s.toNat 1 s.isLt (by decide)).2 h)
theorem comp2 (s : U32) (h : 8 ≤ s.toNat) : (∀ n, iter par2.nstep n s.toNat &&& par2.c ≠ 0) ∧
    (∀ n k, iter par2.nstep (n + 1 + k) s.toNat = iter par2.nstep (n + 1) s.toNat ↔ val (bits 29) ∣ k) :=
  component par2 (bits 29) wit2 (by decide) check2 primes2 (by decide +kernel) s.toNat s.isLt
  ((and_high_ne s.toNat 3 s.isLt (by decide)).2 h)
theorem comp3 (s : U32) (h : 16 ≤ s.toNat) : (∀ n, iter par3.nstep n s.toNat &&& par3.c ≠ 0) ∧
    (∀ n k, iter par3.nstep (n + 1 + k) s.toNat = iter par3.nstep (n + 1) s.toNat ↔ val (bits 28) ∣ k) :=
  component par3 (bits 28) wit3 (by decide) check3 primes3 (by decide +kernel) s.toNat s.isLt
  ((and_high_ne s.toNat 4 s.isLt (by decide)).2 h)
theorem comp4 (s : U32) (h : 128 ≤ s.toNat) : (∀ n, iter par4.nstep n s.toNat &&& par4.c ≠ 0) ∧
    (∀ n k, iter par4.nstep (n + 1 + k) s.toNat = iter par4.nstep (n + 1) s.toNat ↔ val (bits 25) ∣ k) :=
  component par4 (bits 25) wit4 (by decide) check4 primes4 (by decide +kernel) s.toNat s.isLt
  ((and_high_ne s.toNat 7 s.isLt (by decide)).2 h)

theorem steps_alive (p : State) (h : Alive p) (n : Nat) : Alive (steps n p) := by
  obtain ⟨e1, e2, e3, e4⟩ := steps_comp n p
  refine ⟨?_, ?_, ?_, ?_⟩
  · refine (and_high_ne _ 1 (steps n p).s1.isLt (by decide)).1 ?_
    rw [e1]; exact (comp1 p.s1 h.a1).1 n
  · refine (and_high_ne _ 3 (steps n p).s2.isLt (by decide)).1 ?_
    rw [e2]; exact (comp2 p.s2 h.a2).1 n
  · refine (and_high_ne _ 4 (steps n p).s3.isLt (by decide)).1 ?_
    rw [e3]; exact (comp3 p.s3 h.a3).1 n
  · refine (and_high_ne _ 7 (steps n p).s4.isLt (by decide)).1 ?_
    rw [e4]; exact (comp4 p.s4 h.a4).1 n

theorem values_state : ∀ (n : Nat) (p : State), (values n p).1 = steps n p
  | 0, _ => rfl
  | n + 1, p => by rw [values, steps]; exact values_state n (step p)

/-! ## Theorems -/

/-- **C57.** From every seed, and after any number of values, no component is in a state below its threshold (2, 8, 16, 128);
in particular no component is zero. -/
theorem prandom_never_absorbing (s : BitVec 64) (n : Nat) :
    2 ≤ (values n (seed s)).1.s1.toNat ∧ 8 ≤ (values n (seed s)).1.s2.toNat ∧
    16 ≤ (values n (seed s)).1.s3.toNat ∧ 128 ≤ (values n (seed s)).1.s4.toNat := by
  rw [values_state, seed, ← steps_add]
  obtain ⟨h1, h2, h3, h4⟩ := steps_alive (setup s) (setup_alive s) (10 + n)
  exact ⟨h1, h2, h3, h4⟩

/-- **C57.** The same from the static initialiser. -/
theorem prandom_init_never_absorbing (n : Nat) :
    2 ≤ (values n init).1.s1.toNat ∧ 8 ≤ (values n init).1.s2.toNat ∧
    16 ≤ (values n init).1.s3.toNat ∧ 128 ≤ (values n init).1.s4.toNat := by
  rw [values_state]
  obtain ⟨h1, h2, h3, h4⟩ := steps_alive init init_alive n
  exact ⟨h1, h2, h3, h4⟩

/-- The thresholds are exact: below them a component becomes zero at the next step and stays zero. -/
theorem below_absorbs (p : State) :
    (p.s1.toNat < 2 → (step p).s1 = 0) ∧ (p.s2.toNat < 8 → (step p).s2 = 0) ∧
    (p.s3.toNat < 16 → (step p).s3 = 0) ∧ (p.s4.toNat < 128 → (step p).s4 = 0) := by
  have k1 : ∀ x, x < 2 → tausworthe (BitVec.ofNat 32 x) 6 13 4294967294#32 18 = 0 := by decide +kernel
  have k2 : ∀ x, x < 8 → tausworthe (BitVec.ofNat 32 x) 2 27 4294967288#32 2 = 0 := by decide +kernel
  have k3 : ∀ x, x < 16 → tausworthe (BitVec.ofNat 32 x) 13 21 4294967280#32 7 = 0 := by decide +kernel
  have k4 : ∀ x, x < 128 → tausworthe (BitVec.ofNat 32 x) 3 12 4294967168#32 13 = 0 := by decide +kernel
  refine ⟨fun h => ?_, fun h => ?_, fun h => ?_, fun h => ?_⟩
  · have := k1 _ h; rwa [BitVec.ofNat_toNat, BitVec.setWidth_eq] at this
  · have := k2 _ h; rwa [BitVec.ofNat_toNat, BitVec.setWidth_eq] at this
  · have := k3 _ h; rwa [BitVec.ofNat_toNat, BitVec.setWidth_eq] at this
  · have := k4 _ h; rwa [BitVec.ofNat_toNat, BitVec.setWidth_eq] at this

/-- **C71.** From every seed, each component runs through its full period: its values after `n` and after `n + k` results agree exactly
when `k` is a multiple of 2^31 - 1, 2^29 - 1, 2^28 - 1 and 2^25 - 1 respectively. -/
theorem prandom_full_period (s : BitVec 64) (n k : Nat) :
    ((values (n + k) (seed s)).1.s1 = (values n (seed s)).1.s1 ↔ 2 ^ 31 - 1 ∣ k) ∧
    ((values (n + k) (seed s)).1.s2 = (values n (seed s)).1.s2 ↔ 2 ^ 29 - 1 ∣ k) ∧
    ((values (n + k) (seed s)).1.s3 = (values n (seed s)).1.s3 ↔ 2 ^ 28 - 1 ∣ k) ∧
    ((values (n + k) (seed s)).1.s4 = (values n (seed s)).1.s4 ↔ 2 ^ 25 - 1 ∣ k) := by
  rw [values_state, values_state, seed, ← steps_add, ← steps_add, show 10 + (n + k) = (n + 9) + 1 + k by omega,
    show 10 + n = (n + 9) + 1 by omega]
  obtain ⟨a1, a2, a3, a4⟩ := setup_alive s
  obtain ⟨e1, e2, e3, e4⟩ := steps_comp ((n + 9) + 1 + k) (setup s)
  obtain ⟨f1, f2, f3, f4⟩ := steps_comp ((n + 9) + 1) (setup s)
  have v1 : val (bits 31) = 2 ^ 31 - 1 := by decide +kernel
  have v2 : val (bits 29) = 2 ^ 29 - 1 := by decide +kernel
  have v3 : val (bits 28) = 2 ^ 28 - 1 := by decide +kernel
  have v4 : val (bits 25) = 2 ^ 25 - 1 := by decide +kernel
  refine ⟨?_, ?_, ?_, ?_⟩
  · rw [← BitVec.toNat_inj, e1, f1, ← v1]; exact (comp1 _ a1).2 (n + 9) k
  · rw [← BitVec.toNat_inj, e2, f2, ← v2]; exact (comp2 _ a2).2 (n + 9) k
  · rw [← BitVec.toNat_inj, e3, f3, ← v3]; exact (comp3 _ a3).2 (n + 9) k
  · rw [← BitVec.toNat_inj, e4, f4, ← v4]; exact (comp4 _ a4).2 (n + 9) k

/-- **C71.** The whole state recurs exactly after multiples of the least common multiple of the four periods, about 2^113. -/
theorem prandom_state_period (s : BitVec 64) (n k : Nat) :
    (values (n + k) (seed s)).1 = (values n (seed s)).1 ↔
      2 ^ 31 - 1 ∣ k ∧ 2 ^ 29 - 1 ∣ k ∧ 2 ^ 28 - 1 ∣ k ∧ 2 ^ 25 - 1 ∣ k := by
  obtain ⟨h1, h2, h3, h4⟩ := prandom_full_period s n k
  rw [← h1, ← h2, ← h3, ← h4]
  generalize (values (n + k) (seed s)).1 = a
  generalize (values n (seed s)).1 = b
  cases a; cases b
  simp

example : (values 3 (seed 0)).2.length = 3 := by decide +kernel
/-- A zero seed, the extreme case of the hypotheses, starts from the thresholds. -/
example : setup 0 = ⟨2, 8, 16, 128⟩ := by decide +kernel

end Bfdev.Prandom

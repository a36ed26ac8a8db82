import Verif.Prandom.Props

/-!
# Prandom: which states and which seeds give the same results (C127), and drawing wide numbers (C128)
-/

namespace Bfdev.Prandom

/-! ## Differences of two runs -/

theorem iter_xor (q : Par) : ∀ (n x y : Nat), iter q.nstep n (x ^^^ y) = iter q.nstep n x ^^^ iter q.nstep n y
  | 0, _, _ => rfl
  | n + 1, x, y => by rw [iter, iter, iter, nstep_xor, iter_xor q n]

theorem iter_zero (q : Par) : ∀ n, iter q.nstep n 0 = 0
  | 0 => rfl
  | n + 1 => by rw [iter, nstep_zero, iter_zero q n]

/-- A component with its forgotten bits and its period. -/
structure Comp (q : Par) (k P : Nat) : Prop where
  dead : ∀ z, z < 2 ^ k → q.nstep z = 0
  period : ∀ z, z < 2 ^ 32 → 2 ^ k ≤ z → ∀ n j, iter q.nstep (n + 1 + j) z = iter q.nstep (n + 1) z ↔ P ∣ j

theorem Comp.returns {q : Par} {k P : Nat} (h : Comp q k P) {z : Nat} (hz : z < 2 ^ 32) (n j : Nat) (hj : P ∣ j) :
    iter q.nstep (n + 1 + j) z = iter q.nstep (n + 1) z := by
  by_cases ha : 2 ^ k ≤ z
  · exact (h.period z hz ha n j).2 hj
  · rw [show n + 1 + j = (n + j) + 1 by omega, iter, iter, h.dead z (by omega), iter_zero, iter_zero]

theorem comp_one : Comp par1 1 (2 ^ 31 - 1) :=
  ⟨by decide +kernel, fun z hz ha n j => by
    have := (comp1 (BitVec.ofNat 32 z) (by rw [BitVec.toNat_ofNat, Nat.mod_eq_of_lt hz]; exact ha)).2 n j
    rwa [BitVec.toNat_ofNat, Nat.mod_eq_of_lt hz, show val (bits 31) = 2 ^ 31 - 1 by decide +kernel] at this⟩

theorem comp_two : Comp par2 3 (2 ^ 29 - 1) :=
  ⟨by decide +kernel, fun z hz ha n j => by
    have := (comp2 (BitVec.ofNat 32 z) (by rw [BitVec.toNat_ofNat, Nat.mod_eq_of_lt hz]; exact ha)).2 n j
    rwa [BitVec.toNat_ofNat, Nat.mod_eq_of_lt hz, show val (bits 29) = 2 ^ 29 - 1 by decide +kernel] at this⟩

theorem comp_three : Comp par3 4 (2 ^ 28 - 1) :=
  ⟨by decide +kernel, fun z hz ha n j => by
    have := (comp3 (BitVec.ofNat 32 z) (by rw [BitVec.toNat_ofNat, Nat.mod_eq_of_lt hz]; exact ha)).2 n j
    rwa [BitVec.toNat_ofNat, Nat.mod_eq_of_lt hz, show val (bits 28) = 2 ^ 28 - 1 by decide +kernel] at this⟩

theorem comp_four : Comp par4 7 (2 ^ 25 - 1) :=
  ⟨by decide +kernel, fun z hz ha n j => by
    have := (comp4 (BitVec.ofNat 32 z) (by rw [BitVec.toNat_ofNat, Nat.mod_eq_of_lt hz]; exact ha)).2 n j
    rwa [BitVec.toNat_ofNat, Nat.mod_eq_of_lt hz, show val (bits 25) = 2 ^ 25 - 1 by decide +kernel] at this⟩

theorem xor_zero_eq {a b : Nat} (h : a ^^^ b = 0) : a = b := by
  apply Nat.eq_of_testBit_eq
  intro i
  have := congrArg (fun x => x.testBit i) h
  simp only [Nat.testBit_xor, Nat.zero_testBit] at this
  simpa using this

/-- If four components cancel from some point on, the first is one that has been forgotten, as its period is prime to the others. -/
theorem cancel {q1 q2 q3 q4 : Par} {k1 k2 k3 k4 P1 P2 P3 P4 : Nat} (c1 : Comp q1 k1 P1) (c2 : Comp q2 k2 P2) (c3 : Comp q3 k3 P3) (c4 : Comp q4 k4 P4)
    (hP : ¬P1 ∣ P2 * P3 * P4) {z1 z2 z3 z4 : Nat} (h1 : z1 < 2 ^ 32) (h2 : z2 < 2 ^ 32) (h3 : z3 < 2 ^ 32) (h4 : z4 < 2 ^ 32) (m : Nat)
    (h : ∀ n, m ≤ n → iter q1.nstep (n + 1) z1 ^^^ (iter q2.nstep (n + 1) z2 ^^^ (iter q3.nstep (n + 1) z3 ^^^ iter q4.nstep (n + 1) z4)) = 0) : z1 < 2 ^ k1 := by
  refine Nat.not_le.1 fun ha => hP ?_
  refine (c1.period z1 h1 ha m _).1 ?_
  have e1 := xor_zero_eq (h m (Nat.le_refl m))
  have e2 := xor_zero_eq (h (m + P2 * P3 * P4) (by omega))
  rw [show m + P2 * P3 * P4 + 1 = m + 1 + P2 * P3 * P4 by omega] at e2
  rw [e1, e2, c2.returns h2 m _ ⟨P3 * P4, by rw [Nat.mul_assoc]⟩, c3.returns h3 m _ ⟨P2 * P4, by rw [Nat.mul_comm P2, Nat.mul_assoc]⟩,
    c4.returns h4 m _ ⟨P2 * P3, by rw [Nat.mul_comm]⟩]

theorem div_eq_iff (x y k : Nat) : x / 2 ^ k = y / 2 ^ k ↔ x ^^^ y < 2 ^ k := by
  have hp : 0 < 2 ^ k := Nat.two_pow_pos k
  constructor
  · intro h
    have : (x ^^^ y) / 2 ^ k = 0 := by rw [div_xor, h, Nat.xor_self]
    exact (Nat.div_eq_zero_iff_lt hp).1 this
  · intro h
    apply xor_zero_eq
    rw [← div_xor]
    exact Nat.div_eq_of_lt h

/-! ## Results -/

/-- The `n`-th result from a state. -/
theorem result_toNat (n : Nat) (p : State) : (value (steps n p)).2.toNat =
    iter par1.nstep (n + 1) p.s1.toNat ^^^ iter par2.nstep (n + 1) p.s2.toNat ^^^ iter par3.nstep (n + 1) p.s3.toNat ^^^ iter par4.nstep (n + 1) p.s4.toNat := by
  obtain ⟨e1, e2, e3, e4⟩ := steps_comp (n + 1) p
  have hs : steps (n + 1) p = step (steps n p) := by rw [steps_add n 1]; rfl
  rw [hs] at e1 e2 e3 e4
  rw [← e1, ← e2, ← e3, ← e4, value]
  simp only [BitVec.toNat_xor]

theorem values_map : ∀ (n : Nat) (p : State), (values n p).2 = (List.range n).map fun i => (value (steps i p)).2
  | 0, _ => rfl
  | n + 1, p => by
    rw [values, List.range_succ_eq_map, List.map_cons, List.map_map]
    show (value p).2 :: (values n (value p).1).2 = _
    rw [values_map n]
    rfl

theorem values_eq_iff (p q : State) : (∀ n, (values n p).2 = (values n q).2) ↔ ∀ n, (value (steps n p)).2 = (value (steps n q)).2 := by
  constructor
  · intro h n
    have := h (n + 1)
    rw [values_map, values_map] at this
    have := congrArg (fun l => l[n]?) this
    simpa using this
  · intro h n
    rw [values_map, values_map]
    exact List.map_congr_left fun i _ => h i

/-- The bits of a state that its results depend on. -/
def Alike (p q : State) : Prop := p.s1.toNat / 2 = q.s1.toNat / 2 ∧ p.s2.toNat / 8 = q.s2.toNat / 8 ∧ p.s3.toNat / 16 = q.s3.toNat / 16 ∧ p.s4.toNat / 128 = q.s4.toNat / 128

theorem alike_of_tail (p q : State) (m : Nat) (h : ∀ n, m ≤ n → (value (steps n p)).2 = (value (steps n q)).2) : Alike p q := by
  obtain ⟨z1, hz1⟩ : ∃ z, p.s1.toNat ^^^ q.s1.toNat = z := ⟨_, rfl⟩
  obtain ⟨z2, hz2⟩ : ∃ z, p.s2.toNat ^^^ q.s2.toNat = z := ⟨_, rfl⟩
  obtain ⟨z3, hz3⟩ : ∃ z, p.s3.toNat ^^^ q.s3.toNat = z := ⟨_, rfl⟩
  obtain ⟨z4, hz4⟩ : ∃ z, p.s4.toNat ^^^ q.s4.toNat = z := ⟨_, rfl⟩
  have l1 : z1 < 2 ^ 32 := by rw [← hz1]; exact Nat.xor_lt_two_pow p.s1.isLt q.s1.isLt
  have l2 : z2 < 2 ^ 32 := by rw [← hz2]; exact Nat.xor_lt_two_pow p.s2.isLt q.s2.isLt
  have l3 : z3 < 2 ^ 32 := by rw [← hz3]; exact Nat.xor_lt_two_pow p.s3.isLt q.s3.isLt
  have l4 : z4 < 2 ^ 32 := by rw [← hz4]; exact Nat.xor_lt_two_pow p.s4.isLt q.s4.isLt
  have hd : ∀ n, m ≤ n → iter par1.nstep (n + 1) z1 ^^^ (iter par2.nstep (n + 1) z2 ^^^ (iter par3.nstep (n + 1) z3 ^^^ iter par4.nstep (n + 1) z4)) = 0 := by
    intro n hn
    have e := congrArg BitVec.toNat (h n hn)
    rw [result_toNat, result_toNat] at e
    rw [← hz1, ← hz2, ← hz3, ← hz4, iter_xor, iter_xor, iter_xor, iter_xor]
    generalize iter par1.nstep (n + 1) p.s1.toNat = a1 at *
    generalize iter par2.nstep (n + 1) p.s2.toNat = a2 at *
    generalize iter par3.nstep (n + 1) p.s3.toNat = a3 at *
    generalize iter par4.nstep (n + 1) p.s4.toNat = a4 at *
    generalize iter par1.nstep (n + 1) q.s1.toNat = b1 at *
    generalize iter par2.nstep (n + 1) q.s2.toNat = b2 at *
    generalize iter par3.nstep (n + 1) q.s3.toNat = b3 at *
    generalize iter par4.nstep (n + 1) q.s4.toNat = b4 at *
    rw [← Nat.xor_assoc, xor_swap4 a1 b1 a2 b2, xor_swap4 a3 b3 a4 b4, xor_swap4, ← Nat.xor_assoc (a1 ^^^ a2), e, ← Nat.xor_assoc (b1 ^^^ b2), Nat.xor_self]
  refine ⟨?_, ?_, ?_, ?_⟩
  · have := cancel comp_one comp_two comp_three comp_four (by decide +kernel) l1 l2 l3 l4 m hd
    rw [← hz1] at this
    exact (div_eq_iff _ _ 1).2 this
  · have := cancel comp_two comp_one comp_three comp_four (by decide +kernel) l2 l1 l3 l4 m (fun n hn => by
      rw [← hd n hn, ← Nat.xor_assoc, Nat.xor_comm (iter par2.nstep (n + 1) z2), Nat.xor_assoc])
    rw [← hz2] at this
    exact (div_eq_iff _ _ 3).2 this
  · have := cancel comp_three comp_one comp_two comp_four (by decide +kernel) l3 l1 l2 l4 m (fun n hn => by
      rw [← hd n hn, ← Nat.xor_assoc, Nat.xor_comm (iter par3.nstep (n + 1) z3), Nat.xor_assoc, ← Nat.xor_assoc (iter par3.nstep (n + 1) z3),
        Nat.xor_comm (iter par3.nstep (n + 1) z3), Nat.xor_assoc])
    rw [← hz3] at this
    exact (div_eq_iff _ _ 4).2 this
  · have := cancel comp_four comp_one comp_two comp_three (by decide +kernel) l4 l1 l2 l3 m (fun n hn => by
      rw [← hd n hn, Nat.xor_comm, Nat.xor_assoc, Nat.xor_assoc])
    rw [← hz4] at this
    exact (div_eq_iff _ _ 7).2 this

theorem step_alike {p q : State} (h : Alike p q) : step p = step q := by
  have same : ∀ (r : Par) (k P x y : Nat), Comp r k P → x / 2 ^ k = y / 2 ^ k → r.nstep x = r.nstep y := by
    intro r k P x y hc h
    apply xor_zero_eq
    rw [← nstep_xor]
    exact hc.dead _ ((div_eq_iff x y k).1 h)
  obtain ⟨h1, h2, h3, h4⟩ := h
  have f1 : par1.step p.s1 = par1.step q.s1 := BitVec.eq_of_toNat_eq (by rw [step_toNat par1 (by decide), step_toNat par1 (by decide)]; exact same _ 1 _ _ _ comp_one h1)
  have f2 : par2.step p.s2 = par2.step q.s2 := BitVec.eq_of_toNat_eq (by rw [step_toNat par2 (by decide), step_toNat par2 (by decide)]; exact same _ 3 _ _ _ comp_two h2)
  have f3 : par3.step p.s3 = par3.step q.s3 := BitVec.eq_of_toNat_eq (by rw [step_toNat par3 (by decide), step_toNat par3 (by decide)]; exact same _ 4 _ _ _ comp_three h3)
  have f4 : par4.step p.s4 = par4.step q.s4 := BitVec.eq_of_toNat_eq (by rw [step_toNat par4 (by decide), step_toNat par4 (by decide)]; exact same _ 7 _ _ _ comp_four h4)
  show State.mk (par1.step p.s1) (par2.step p.s2) (par3.step p.s3) (par4.step p.s4) = State.mk (par1.step q.s1) (par2.step q.s2) (par3.step q.s3) (par4.step q.s4)
  rw [f1, f2, f3, f4]

/-- C127: two states give the same results for ever exactly when they agree but for the lowest 1, 3, 4 and 7 bits of their words. -/
theorem same_results_iff (p q : State) : (∀ n, (values n p).2 = (values n q).2) ↔
    p.s1.toNat / 2 = q.s1.toNat / 2 ∧ p.s2.toNat / 8 = q.s2.toNat / 8 ∧ p.s3.toNat / 16 = q.s3.toNat / 16 ∧ p.s4.toNat / 128 = q.s4.toNat / 128 := by
  rw [values_eq_iff]
  constructor
  · exact fun h => alike_of_tail p q 0 fun n _ => h n
  · intro h n
    have : step (steps n p) = step (steps n q) := by
      have e : ∀ x : State, step (steps n x) = steps n (step x) := fun x => by
        have h1 := steps_add n 1 x
        have h2 := steps_add 1 n x
        rw [Nat.add_comm 1 n, h1] at h2
        exact h2
      rw [e, e, step_alike h]
    rw [value, value, this]

/-! ## Seeds -/

/-- What is left of a seed: the upper word, the lower word and the lower word moved up by ten bits, combined by exclusive or. -/
def fold (s : BitVec 64) : Nat := (s.toNat / 2 ^ 32) ^^^ (s.toNat * 2 ^ 10 % 2 ^ 32) ^^^ (s.toNat % 2 ^ 32)

theorem fold_lt (s : BitVec 64) : fold s < 2 ^ 32 := by
  have := s.isLt
  exact Nat.xor_lt_two_pow (Nat.xor_lt_two_pow (by omega) (Nat.mod_lt _ (by decide))) (Nat.mod_lt _ (by decide))

theorem setup_fold (s : BitVec 64) : setup s = ⟨seedMinimum (BitVec.ofNat 32 (fold s)) 2, seedMinimum (BitVec.ofNat 32 (fold s)) 8,
    seedMinimum (BitVec.ofNat 32 (fold s)) 16, seedMinimum (BitVec.ofNat 32 (fold s)) 128⟩ := by
  have : ((((s >>> 32) ^^^ (s <<< 10) ^^^ s) &&& 0xffffffff#64).setWidth 32 : U32) = BitVec.ofNat 32 (fold s) := by
    apply BitVec.eq_of_toNat_eq
    have hs := s.isLt
    rw [BitVec.toNat_setWidth, BitVec.toNat_and, BitVec.toNat_xor, BitVec.toNat_xor, BitVec.toNat_ushiftRight, BitVec.toNat_shiftLeft, BitVec.toNat_ofNat,
      BitVec.toNat_ofNat, show 4294967295 % 2 ^ 64 = 2 ^ 32 - 1 by decide, Nat.and_two_pow_sub_one_eq_mod, Nat.mod_mod, mod_xor, mod_xor, Nat.shiftLeft_eq,
      Nat.shiftRight_eq_div_pow, Nat.mod_mod_of_dvd _ (by decide : 2 ^ 32 ∣ 2 ^ 64), Nat.mod_eq_of_lt (fold_lt s), fold,
      Nat.mod_eq_of_lt (show s.toNat / 2 ^ 32 < 2 ^ 32 by omega)]
  rw [setup, this]

theorem minimum_toNat (x : Nat) (hx : x < 2 ^ 32) (m : Nat) (hm : m ≤ 128) : (seedMinimum (BitVec.ofNat 32 x) (BitVec.ofNat 32 m)).toNat = if x < m then x + m else x := by
  rw [seedMinimum]
  have h1 : (BitVec.ofNat 32 x).toNat = x := by rw [BitVec.toNat_ofNat, Nat.mod_eq_of_lt hx]
  have h2 : (BitVec.ofNat 32 m).toNat = m := by rw [BitVec.toNat_ofNat, Nat.mod_eq_of_lt (by omega)]
  by_cases h : x < m
  · rw [if_pos (by rw [BitVec.lt_def, h1, h2]; exact h), if_pos h, BitVec.toNat_add, h1, h2]
    omega
  · rw [if_neg (by rw [BitVec.lt_def, h1, h2]; exact h), if_neg h, h1]

theorem setup_alike (s t : BitVec 64) : Alike (setup s) (setup t) ↔ fold s / 2 = fold t / 2 ∨ (fold s < 4 ∧ fold t < 4) := by
  have hs := fold_lt s
  have ht := fold_lt t
  rw [Alike, setup_fold, setup_fold]
  dsimp only
  have a1 := minimum_toNat _ hs 2 (by decide)
  have a2 := minimum_toNat _ hs 8 (by decide)
  have a3 := minimum_toNat _ hs 16 (by decide)
  have a4 := minimum_toNat _ hs 128 (by decide)
  have b1 := minimum_toNat _ ht 2 (by decide)
  have b2 := minimum_toNat _ ht 8 (by decide)
  have b3 := minimum_toNat _ ht 16 (by decide)
  have b4 := minimum_toNat _ ht 128 (by decide)
  rw [show (2 : U32) = BitVec.ofNat 32 2 from rfl, show (8 : U32) = BitVec.ofNat 32 8 from rfl, show (16 : U32) = BitVec.ofNat 32 16 from rfl,
    show (128 : U32) = BitVec.ofNat 32 128 from rfl, a1, a2, a3, a4, b1, b2, b3, b4]
  generalize fold s = x at *
  generalize fold t = y at *
  clear a1 a2 a3 a4 b1 b2 b3 b4
  constructor
  · rintro ⟨h1, -⟩
    split at h1 <;> split at h1 <;> omega
  · intro h
    refine ⟨?_, ?_, ?_, ?_⟩ <;> split <;> split <;> omega

/-- C127: two seeds give the same results for ever exactly when what is left of them agrees but for the lowest bit, or is below 4 for both.
Missing: that different seeds give different results, which is false. -/
theorem seeds_differ_partial (s t : BitVec 64) : (∀ n, (values n (seed s)).2 = (values n (seed t)).2) ↔
    fold s / 2 = fold t / 2 ∨ (fold s < 4 ∧ fold t < 4) := by
  rw [← setup_alike]
  constructor
  · intro h
    refine alike_of_tail _ _ 10 fun n hn => ?_
    have := (values_eq_iff _ _).1 h (n - 10)
    rw [seed, seed, ← steps_add, ← steps_add, show 10 + (n - 10) = n by omega] at this
    exact this
  · intro h n
    have e : ∀ x : State, steps 10 x = steps 9 (step x) := fun _ => rfl
    rw [seed, seed, e, e, step_alike h]

/-- C127 is false: every seed gives the same results as the one that differs in bit 32 only. -/
theorem seeds_differ_violated (s : BitVec 64) : s ^^^ 0x100000000#64 ≠ s ∧ ∀ n, (values n (seed (s ^^^ 0x100000000#64))).2 = (values n (seed s)).2 := by
  constructor
  · intro h
    have := congrArg (fun x => s ^^^ x) h
    simp only [← BitVec.xor_assoc, BitVec.xor_self, BitVec.zero_xor] at this
    exact absurd this (by decide)
  · refine (seeds_differ_partial _ _).2 (Or.inl ?_)
    have e : fold (s ^^^ 0x100000000#64) = fold s ^^^ 1 := by
      rw [fold, fold, BitVec.toNat_xor, show (0x100000000#64).toNat = 2 ^ 32 from rfl, div_xor, mul_xor, mod_xor, mod_xor]
      rw [show 2 ^ 32 / 2 ^ 32 = 1 by decide, show 2 ^ 32 * 2 ^ 10 % 2 ^ 32 = 0 by decide, Nat.xor_zero, Nat.xor_zero,
        Nat.xor_assoc (s.toNat / 2 ^ 32), Nat.xor_comm 1, ← Nat.xor_assoc (s.toNat / 2 ^ 32), Nat.xor_assoc _ 1, Nat.xor_comm 1, ← Nat.xor_assoc]
    rw [e]
    exact (div_eq_iff _ _ 1).2 (by rw [Nat.xor_comm, ← Nat.xor_assoc, Nat.xor_self, Nat.zero_xor]; decide)

/-- Neighbouring small seeds are told apart; a seed and its partner in bit 32 are not. -/
example : (values 1 (seed 4)).2 ≠ (values 1 (seed 5)).2 ∧ (values 3 (seed 4)).2 = (values 3 (seed 0x100000004#64)).2 := by decide +kernel
example : fold 4 = 0x1004 ∧ fold 5 = 0x1405 ∧ fold 0x100000004#64 = 0x1005 := by decide +kernel

/-! ## Drawing numbers of both sizes -/

/-- A call for a number. -/
inductive Draw where
  | value
  | u64
  | long

/-- A draw, with its result as a number. -/
def Draw.run (p : State) : Draw → State × Nat
  | .value => ((Prandom.value p).1, (Prandom.value p).2.toNat)
  | .u64 => ((Prandom.u64 p).1, (Prandom.u64 p).2.toNat)
  | .long => ((Prandom.long p).1, (Prandom.long p).2.toNat)

/-- A sequence of draws. -/
def runDraws (p : State) : List Draw → State × List Nat
  | [] => (p, [])
  | d :: ds => ((runDraws (d.run p).1 ds).1, (d.run p).2 :: (runDraws (d.run p).1 ds).2)

/-- The number of 32-bit results behind a sequence of draws. -/
def words : List Draw → Nat
  | [] => 0
  | .value :: ds => words ds + 1
  | .u64 :: ds => words ds + 2
  | .long :: ds => words ds + 2

/-- The numbers a sequence of draws makes of a stream of 32-bit results: wide ones take two, the upper half first. -/
def cut : List Draw → List Nat → List Nat
  | [], _ => []
  | .value :: ds, x :: xs => x :: cut ds xs
  | .u64 :: ds, x :: y :: xs => (x * 2 ^ 32 + y) :: cut ds xs
  | .long :: ds, x :: y :: xs => (x * 2 ^ 32 + y) :: cut ds xs
  | _, _ => []

theorem u64_toNat (p : State) : (u64 p).2.toNat = (value p).2.toNat * 2 ^ 32 + (value (value p).1).2.toNat := by
  have h1 := (value p).2.isLt
  have h2 := (value (value p).1).2.isLt
  rw [u64]
  dsimp only
  rw [BitVec.toNat_or, BitVec.toNat_shiftLeft, BitVec.toNat_setWidth, BitVec.toNat_setWidth, Nat.shiftLeft_eq,
    Nat.mod_eq_of_lt (show (value p).2.toNat < 2 ^ 64 by omega), Nat.mod_eq_of_lt (show (value p).2.toNat * 2 ^ 32 < 2 ^ 64 by omega),
    Nat.mod_eq_of_lt (show (value (value p).1).2.toNat < 2 ^ 64 by omega), Nat.mul_comm, ← Nat.two_pow_add_eq_or_of_lt h2]

/-- C128: any sequence of draws of either size reads the one stream of 32-bit results, in order, without leaving out or repeating any. -/
theorem draws (ds : List Draw) (p : State) :
    (runDraws p ds).2 = cut ds ((values (words ds) p).2.map BitVec.toNat) ∧ (runDraws p ds).1 = (values (words ds) p).1 := by
  induction ds generalizing p with
  | nil => exact ⟨rfl, rfl⟩
  | cons d ds ih =>
    cases d with
    | value =>
      obtain ⟨h1, h2⟩ := ih (value p).1
      rw [runDraws, words, values]
      refine ⟨?_, h2⟩
      show (value p).2.toNat :: (runDraws (value p).1 ds).2 = _
      rw [h1]
      rfl
    | u64 =>
      obtain ⟨h1, h2⟩ := ih (value (value p).1).1
      rw [runDraws, words, values, values]
      refine ⟨?_, h2⟩
      show (u64 p).2.toNat :: (runDraws (value (value p).1).1 ds).2 = _
      rw [h1, u64_toNat]
      rfl
    | long =>
      obtain ⟨h1, h2⟩ := ih (value (value p).1).1
      rw [runDraws, words, values, values]
      refine ⟨?_, h2⟩
      show (u64 p).2.toNat :: (runDraws (value (value p).1).1 ds).2 = _
      rw [h1, u64_toNat]
      rfl

example : (runDraws (seed 1) [.value, .u64, .value]).2.length = 3 ∧ words [.value, .u64, .value] = 4 ∧ (runDraws (seed 1) [.u64]).2 ≠ (runDraws (seed 1) [.value]).2 := by decide +kernel

end Bfdev.Prandom

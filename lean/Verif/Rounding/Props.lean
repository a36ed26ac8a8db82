import Verif.Rounding.Model
import Verif.Rounding.Spec
/-!
C88: rounding.
-/
namespace Bfdev.Rounding

theorem mask_toNat {w v k : Nat} {y : BitVec v} (hy : y.toNat = 2 ^ k) : (roundMask w y).toNat = (2 ^ k - 1) % 2 ^ w := by
  have h1 : (1 : BitVec v).toNat ≤ y.toNat := by
    rw [hy]
    have : (1 : BitVec v).toNat ≤ 1 := by
      show (BitVec.ofNat v 1).toNat ≤ 1
      rw [BitVec.toNat_ofNat]; exact Nat.mod_le _ _
    exact Nat.le_trans this Nat.one_le_two_pow
  have hk : 0 < v := by
    rcases Nat.eq_zero_or_pos v with h | h
    · subst h
      have : y.toNat = 0 := by have := y.isLt; omega
      rw [this] at hy
      have := Nat.one_le_two_pow (n := k)
      omega
    · exact h
  have h2 : (1 : BitVec v).toNat = 1 := by
    show (BitVec.ofNat v 1).toNat = 1
    rw [BitVec.toNat_ofNat]
    exact Nat.mod_eq_of_lt (Nat.one_lt_two_pow (by omega))
  rw [roundMask, BitVec.toNat_setWidth, BitVec.toNat_sub_of_le (by rw [BitVec.le_def]; exact h1), hy, h2]

theorem mask_bit {w v k : Nat} {y : BitVec v} (hy : y.toNat = 2 ^ k) (i : Nat) : (roundMask w y).getLsbD i = (decide (i < w) && decide (i < k)) := by
  rw [BitVec.getLsbD, mask_toNat hy, Nat.testBit_mod_two_pow, Nat.testBit_two_pow_sub_one]

/-- C88. Rounding down to a power of two gives the greatest multiple that is not above. -/
theorem round_down_correct {w v k : Nat} (x : BitVec w) (y : BitVec v) (hy : y.toNat = 2 ^ k) : GreatestMultiple x.toNat (2 ^ k) (roundDown x y).toNat := by
  have e : (roundDown x y).toNat = x.toNat / 2 ^ k * 2 ^ k := by
    refine Nat.eq_of_testBit_eq fun i => ?_
    rw [Nat.testBit_mul_two_pow, Nat.testBit_div_two_pow]
    show (x &&& ~~~ roundMask w y).getLsbD i = _
    rw [BitVec.getLsbD_and, BitVec.getLsbD_not, mask_bit hy]
    by_cases h1 : i < w
    · by_cases h2 : i < k
      · simp [h1, h2, show ¬ k ≤ i by omega]
      · simp [h1, h2, show k ≤ i by omega, show i - k + k = i by omega, BitVec.getLsbD]
    · have : x.toNat.testBit i = false := by
        have := BitVec.getLsbD_of_ge x i (by omega)
        exact this
      by_cases h2 : k ≤ i
      · simp [h1, show i - k + k = i by omega, this]
      · simp [h1, h2]
  rw [e]
  refine ⟨Nat.dvd_mul_left .., Nat.div_mul_le_self .., fun m h1 h2 => ?_⟩
  obtain ⟨c, rfl⟩ := h1
  rw [Nat.mul_comm]
  refine Nat.mul_le_mul_right _ ?_
  rw [Nat.le_div_iff_mul_le (Nat.two_pow_pos k), Nat.mul_comm]
  exact h2

theorem or_low (a k : Nat) : a ||| (2 ^ k - 1) = (a / 2 ^ k + 1) * 2 ^ k - 1 := by
  have h : (a / 2 ^ k + 1) * 2 ^ k - 1 = 2 ^ k * (a / 2 ^ k) + (2 ^ k - 1) := by
    have := Nat.two_pow_pos k
    rw [Nat.add_mul, Nat.mul_comm (a / 2 ^ k)]
    omega
  rw [h, Nat.two_pow_add_eq_or_of_lt (by have := Nat.two_pow_pos k; omega)]
  refine Nat.eq_of_testBit_eq fun i => ?_
  rw [Nat.testBit_or, Nat.testBit_or, Nat.testBit_two_pow_sub_one, Nat.mul_comm, Nat.testBit_mul_two_pow, Nat.testBit_div_two_pow]
  by_cases h : i < k
  · simp [h]
  · simp [h, show k ≤ i by omega, show i - k + k = i by omega]

theorem ceil_least (x k : Nat) (h : 0 < x) : LeastMultiple x (2 ^ k) (((x - 1) / 2 ^ k + 1) * 2 ^ k) := by
  have hp := Nat.two_pow_pos k
  refine ⟨Nat.dvd_mul_left .., ?_, fun m h1 h2 => ?_⟩
  · have := Nat.lt_mul_div_succ (x - 1) hp
    rw [Nat.mul_comm]; omega
  · obtain ⟨c, rfl⟩ := h1
    rw [Nat.mul_comm (2 ^ k) c]
    refine Nat.mul_le_mul_right _ ?_
    have : (x - 1) / 2 ^ k < c := by
      rw [Nat.div_lt_iff_lt_mul hp, Nat.mul_comm]; omega
    exact this

/-- C88. Rounding up to a power of two gives the least multiple that is not below, modulo the width of the type. -/
theorem round_up_correct {w v k : Nat} (x : BitVec w) (y : BitVec v) (hy : y.toNat = 2 ^ k) :
    ∃ m, LeastMultiple x.toNat (2 ^ k) m ∧ (roundUp x y).toNat = m % 2 ^ w := by
  have hp := Nat.two_pow_pos k
  have hw := Nat.two_pow_pos w
  rcases Nat.eq_zero_or_pos x.toNat with h0 | h0
  · refine ⟨0, ⟨Nat.dvd_zero _, by omega, fun _ _ _ => Nat.zero_le _⟩, ?_⟩
    have hx : x = 0 := BitVec.eq_of_toNat_eq (by rw [h0]; simp)
    have e : ((x - 1) ||| roundMask w y) = BitVec.allOnes w := by
      rw [hx, show (0 : BitVec w) - 1 = BitVec.allOnes w by
        rw [← BitVec.neg_one_eq_allOnes]; simp]
      exact BitVec.allOnes_or
    rw [roundUp, e]
    rw [← BitVec.neg_one_eq_allOnes, BitVec.add_comm, BitVec.add_neg_eq_sub]
    rw [show (1 : BitVec w) - 1#w = 0 from BitVec.sub_self _]
    simp
  · have hw0 : 0 < w := by
      rcases Nat.eq_zero_or_pos w with h | h
      · subst h; have := x.isLt; omega
      · exact h
    have one : (1 : BitVec w).toNat = 1 := by
      show (BitVec.ofNat w 1).toNat = 1
      rw [BitVec.toNat_ofNat]; exact Nat.mod_eq_of_lt (Nat.one_lt_two_pow (by omega))
    refine ⟨((x.toNat - 1) / 2 ^ k + 1) * 2 ^ k, ceil_least _ _ h0, ?_⟩
    rw [roundUp, BitVec.toNat_add, BitVec.toNat_or, mask_toNat hy, BitVec.toNat_sub_of_le (by rw [BitVec.le_def, one]; exact h0), one]
    by_cases hk : k ≤ w
    · have h1 : 2 ^ k ≤ 2 ^ w := Nat.pow_le_pow_right (by decide) hk
      rw [Nat.mod_eq_of_lt (a := 2 ^ k - 1) (by omega), or_low, Nat.sub_add_cancel]
      exact Nat.mul_pos (Nat.succ_pos _) hp
    · have e1 : (2 ^ k - 1) % 2 ^ w = 2 ^ w - 1 := by
        refine Nat.eq_of_testBit_eq fun i => ?_
        rw [Nat.testBit_mod_two_pow, Nat.testBit_two_pow_sub_one, Nat.testBit_two_pow_sub_one]
        by_cases h : i < w
        · simp [h, show i < k by omega]
        · simp [h]
      have h1 : (x.toNat - 1) / 2 ^ w = 0 := Nat.div_eq_of_lt (by have := x.isLt; omega)
      have h2 : (x.toNat - 1) / 2 ^ k = 0 := Nat.div_eq_of_lt (by have := x.isLt; have := Nat.pow_lt_pow_right (a := 2) (by decide) (show w < k by omega); omega)
      rw [e1, or_low, h1, h2, Nat.zero_add, Nat.one_mul, Nat.one_mul, Nat.sub_add_cancel hw, Nat.mod_self]
      have : 2 ^ k = 2 ^ (k - w) * 2 ^ w := by rw [← Nat.pow_add]; congr 1; omega
      rw [this, Nat.mul_mod_left]

theorem toNat_two {w : Nat} (d : BitVec w) : (d / 2).toNat = d.toNat / 2 := by
  rw [BitVec.toNat_udiv]
  rcases Nat.lt_or_ge w 2 with h | h
  · have h1 := d.isLt
    have : 2 ^ w ≤ 2 := by
      have := Nat.pow_le_pow_right (n := 2) (by decide) (show w ≤ 1 by omega)
      simpa using this
    have h2 : (2 : BitVec w).toNat = 0 := by
      show (BitVec.ofNat w 2).toNat = 0
      rw [BitVec.toNat_ofNat]
      have : w = 0 ∨ w = 1 := by omega
      rcases this with rfl | rfl <;> rfl
    rw [h2, Nat.div_zero, Nat.div_eq_of_lt (by omega)]
  · have : (2 : BitVec w).toNat = 2 := by
      show (BitVec.ofNat w 2).toNat = 2
      rw [BitVec.toNat_ofNat]
      exact Nat.mod_eq_of_lt (Nat.lt_of_lt_of_le (by decide) (Nat.pow_le_pow_right (n := 2) (by decide) h))
    rw [this]

theorem sub_one_toNat {w : Nat} (n d : BitVec w) (hd : d ≠ 0) : (n + d - 1).toNat = (n.toNat + (d.toNat - 1)) % 2 ^ w := by
  have hd1 : 1 ≤ d.toNat := by
    rcases Nat.eq_zero_or_pos d.toNat with h | h
    · exact absurd (BitVec.eq_of_toNat_eq (by rw [h]; simp)) hd
    · exact h
  have hw0 : 0 < w := by
    rcases Nat.eq_zero_or_pos w with h | h
    · subst h; have := d.isLt; omega
    · exact h
  have one : (1 : BitVec w).toNat = 1 := by
    show (BitVec.ofNat w 1).toNat = 1
    rw [BitVec.toNat_ofNat]; exact Nat.mod_eq_of_lt (Nat.one_lt_two_pow (by omega))
  rw [show n + d - 1 = n + (d - 1) by rw [BitVec.sub_eq_add_neg, BitVec.sub_eq_add_neg, BitVec.add_assoc], BitVec.toNat_add,
    BitVec.toNat_sub_of_le (by rw [BitVec.le_def, one]; exact hd1), one]

theorem ceil_div (n d : Nat) (h : 0 < d) : Ceiling n d ((n + (d - 1)) / d) := by
  constructor
  · have := Nat.lt_mul_div_succ (n + (d - 1)) h
    rw [Nat.mul_add, Nat.mul_one, Nat.mul_comm d] at this
    omega
  · intro k hk
    have : (n + (d - 1)) / d < k + 1 := by
      rw [Nat.div_lt_iff_lt_mul h, Nat.add_mul, Nat.one_mul]
      omega
    omega

/-- C88, as far as the sum fits: division rounding up gives the ceiling of the quotient. -/
theorem div_round_up_partial {w : Nat} (n d : BitVec w) (hd : d ≠ 0) (h : n.toNat + (d.toNat - 1) < 2 ^ w) :
    ∃ q, divRoundUp n d = some q ∧ Ceiling n.toNat d.toNat q.toNat := by
  refine ⟨_, by rw [divRoundUp, if_neg hd], ?_⟩
  rw [BitVec.toNat_udiv, sub_one_toNat n d hd, Nat.mod_eq_of_lt h]
  refine ceil_div _ _ ?_
  rcases Nat.eq_zero_or_pos d.toNat with h | h
  · exact absurd (BitVec.eq_of_toNat_eq (by rw [h]; simp)) hd
  · exact h

/-- C88 fails in every other case: where dividend plus divisor less one wraps, the division rounding up gives 0, which is never the ceiling. -/
theorem div_round_up_violated {w : Nat} (n d : BitVec w) (hd : d ≠ 0) (h : 2 ^ w ≤ n.toNat + (d.toNat - 1)) :
    divRoundUp n d = some 0 ∧ ¬ Ceiling n.toNat d.toNat 0 := by
  have h1 := n.isLt
  have h2 := d.isLt
  have hd0 : 0 < d.toNat := by
    rcases Nat.eq_zero_or_pos d.toNat with h | h
    · exact absurd (BitVec.eq_of_toNat_eq (by rw [h]; simp)) hd
    · exact h
  refine ⟨?_, fun hc => ?_⟩
  · rw [divRoundUp, if_neg hd]
    refine congrArg some (BitVec.eq_of_toNat_eq ?_)
    rw [BitVec.toNat_udiv, sub_one_toNat n d hd, show n.toNat + (d.toNat - 1) = n.toNat + (d.toNat - 1) - 2 ^ w + 2 ^ w by omega, Nat.add_mod_right,
      Nat.mod_eq_of_lt (by omega), Nat.div_eq_of_lt (by omega)]
    simp
  · have := hc.1
    omega

theorem nearest_nat (a e : Nat) (he : 0 < e) : Nearest a e (((a + e / 2) / e : Nat) : Int) := by
  generalize hq : (a + e / 2) / e = q
  have h1 : q * e ≤ a + e / 2 := by rw [← hq]; exact Nat.div_mul_le_self ..
  have h2 : a + e / 2 < q * e + e := by
    have := Nat.lt_mul_div_succ (a + e / 2) he
    rw [hq, Nat.mul_add, Nat.mul_one, Nat.mul_comm e] at this
    exact this
  have hqe : ((q : Int) * (e : Int)) = ((q * e : Nat) : Int) := by simp
  unfold Nearest
  rw [hqe]
  refine ⟨by omega, fun k hk => ?_⟩
  generalize hj : k - (q : Int) = j
  have hk' : k = (q : Int) + j := by omega
  rw [hk', Int.add_mul, hqe] at hk
  by_cases hj0 : j = 0
  · left; omega
  right
  by_cases hp : 0 < j
  · have : (e : Int) ≤ j * e := by
      have := Int.mul_le_mul_of_nonneg_right (show (1 : Int) ≤ j by omega) (show (0 : Int) ≤ e by omega)
      simpa using this
    omega
  · by_cases hj1 : j = -1
    · subst hj1
      have : q ≠ 0 := by
        intro hq0
        subst hq0
        simp only [Nat.zero_mul] at h1 h2 hk
        omega
      omega
    · have : j * e ≤ -2 * (e : Int) := Int.mul_le_mul_of_nonneg_right (show j ≤ -2 by omega) (show (0 : Int) ≤ e by omega)
      omega

theorem Nearest.neg {x d q : Int} (h : Nearest x d q) : Nearest (-x) d (-q) := by
  refine ⟨?_, fun k hk => ?_⟩
  · have := h.1
    rw [Int.neg_mul]
    omega
  · have := h.2 (-k) (by rw [Int.neg_mul] at hk ⊢; omega)
    omega

theorem Nearest.negd {x d q : Int} (h : Nearest x d q) : Nearest x (-d) (-q) := by
  refine ⟨?_, fun k hk => ?_⟩
  · have := h.1
    rw [Int.neg_mul_neg]
    omega
  · have := h.2 (-k) (by rw [Int.neg_mul_neg, Int.mul_neg] at hk; rw [Int.neg_mul]; exact hk)
    omega

/-- C88, as far as the sum fits: the closest quotient of unsigned numbers. -/
theorem div_closest_unsigned_partial {w : Nat} (x d : BitVec w) (hd : d ≠ 0) (h : x.toNat + d.toNat / 2 < 2 ^ w) :
    ∃ q, divClosestU x d = some q ∧ Nearest x.toNat d.toNat q.toNat := by
  refine ⟨_, by rw [divClosestU, if_neg hd], ?_⟩
  rw [BitVec.toNat_udiv, BitVec.toNat_add, toNat_two, Nat.mod_eq_of_lt h]
  refine nearest_nat _ _ ?_
  rcases Nat.eq_zero_or_pos d.toNat with h | h
  · exact absurd (BitVec.eq_of_toNat_eq (by rw [h]; simp)) hd
  · exact h

/-- C88 fails in every other unsigned case: where the sum wraps the quotient is 0, which is not the closest. -/
theorem div_closest_unsigned_violated {w : Nat} (x d : BitVec w) (h : 2 ^ w ≤ x.toNat + d.toNat / 2) :
    divClosestU x d = some 0 ∧ ¬ Nearest x.toNat d.toNat 0 := by
  have h1 := x.isLt
  have h2 := d.isLt
  have hd : d ≠ 0 := by
    rintro rfl
    simp at h
    omega
  refine ⟨?_, fun hc => ?_⟩
  · rw [divClosestU, if_neg hd]
    refine congrArg some (BitVec.eq_of_toNat_eq ?_)
    rw [BitVec.toNat_udiv, BitVec.toNat_add, toNat_two, show x.toNat + d.toNat / 2 = x.toNat + d.toNat / 2 - 2 ^ w + 2 ^ w by omega, Nat.add_mod_right,
      Nat.mod_eq_of_lt (by omega), Nat.div_eq_of_lt (by omega)]
    simp
  · have := hc.1
    simp only [Int.zero_mul, Int.sub_zero] at this
    omega

theorem tdiv_two (d : Int) : d.tdiv 2 = if 0 ≤ d then ((d.natAbs / 2 : Nat) : Int) else -((d.natAbs / 2 : Nat) : Int) := by
  split
  · rename_i h
    obtain ⟨n, rfl⟩ := Int.eq_ofNat_of_zero_le h
    rfl
  · rename_i h
    obtain ⟨n, rfl⟩ : ∃ n : Nat, d = -(n : Int) := ⟨d.natAbs, by omega⟩
    rw [Int.neg_tdiv, Int.natAbs_neg]
    rfl

/-- The sum the closest quotient of signed numbers divides. -/
theorem closest_sum (w : Nat) (x d : Int) (hw : 2 ≤ w) (hd : -2 ^ (w - 1) ≤ d ∧ d < 2 ^ (w - 1)) :
    divClosest w x d = (signed w (if x > 0 then ((x.natAbs + d.natAbs / 2 : Nat) : Int) else -((x.natAbs + d.natAbs / 2 : Nat) : Int))).bind fun s => cdiv w s d := by
  have h2 := tdiv_two d
  have hb : -2 ^ (w - 1) ≤ d.tdiv 2 ∧ d.tdiv 2 < 2 ^ (w - 1) := by
    generalize (2 : Int) ^ (w - 1) = B at *
    split at h2 <;> omega
  rw [divClosest, cdiv, if_neg (by decide), signed, if_pos hb]
  simp only [Option.bind_eq_bind, Option.bind_some]
  by_cases hx : x > 0 <;> by_cases hd0 : d > 0
  · rw [if_pos (by simp [hx, hd0]), if_pos hx]
    rw [if_pos (show 0 ≤ d by omega)] at h2
    rw [h2]; congr 2; omega
  · rw [if_neg (by simp [hx, hd0]), if_pos hx]
    congr 2
    split at h2 <;> omega
  · rw [if_neg (by simp [hx, hd0]), if_neg hx]
    congr 2
    split at h2 <;> omega
  · rw [if_pos (by simp [hx, hd0]), if_neg hx]
    congr 2
    split at h2 <;> omega

theorem tdiv_closest (x d : Int) (hd : d ≠ 0) :
    Nearest x d ((if x > 0 then ((x.natAbs + d.natAbs / 2 : Nat) : Int) else -((x.natAbs + d.natAbs / 2 : Nat) : Int)).tdiv d) := by
  have key := nearest_nat x.natAbs d.natAbs (by omega)
  have hn : ((((x.natAbs + d.natAbs / 2 : Nat) : Int)).tdiv (d.natAbs : Int)) = (((x.natAbs + d.natAbs / 2) / d.natAbs : Nat) : Int) := rfl
  rw [← hn] at key
  by_cases hx : x > 0 <;> by_cases hd0 : d > 0
  · rw [if_pos hx]
    have e1 : (x.natAbs : Int) = x := by omega
    have e2 : (d.natAbs : Int) = d := by omega
    rw [e2] at key; rw [e1] at key; exact key
  · rw [if_pos hx]
    have e1 : (x.natAbs : Int) = x := by omega
    have e2 : (d.natAbs : Int) = -d := by omega
    rw [e2, Int.tdiv_neg] at key
    have := key.negd
    rw [e1, Int.neg_neg, Int.neg_neg] at this; exact this
  · rw [if_neg hx, Int.neg_tdiv]
    have e1 : (x.natAbs : Int) = -x := by omega
    have e2 : (d.natAbs : Int) = d := by omega
    rw [e2] at key
    have := key.neg
    rw [e1, Int.neg_neg] at this; exact this
  · rw [if_neg hx, Int.neg_tdiv]
    have e1 : (x.natAbs : Int) = -x := by omega
    have e2 : (d.natAbs : Int) = -d := by omega
    rw [e2, Int.tdiv_neg] at key
    have := key.neg.negd
    rw [e1, Int.neg_neg, Int.neg_neg, Int.neg_neg] at this; exact this

/-- C88. The closest quotient of signed numbers: where the sum and the quotient fit in the type, the nearest number, halves away from zero; otherwise, and only then,
the behaviour is undefined. -/
theorem div_closest_signed_partial (w : Nat) (x d : Int) (hw : 2 ≤ w) (hx : -2 ^ (w - 1) ≤ x ∧ x < 2 ^ (w - 1)) (hd : -2 ^ (w - 1) ≤ d ∧ d < 2 ^ (w - 1)) :
    (∀ q, divClosest w x d = some q → Nearest x d q) ∧
    (divClosest w x d = none ↔ d = 0 ∨ (0 < x ∧ 2 ^ (w - 1) ≤ x + d.natAbs / 2) ∨ (x ≤ 0 ∧ x - d.natAbs / 2 < -2 ^ (w - 1)) ∨ (d = -1 ∧ x = -2 ^ (w - 1))) := by
  rw [closest_sum w x d hw hd]
  generalize hs : (if x > 0 then ((x.natAbs + d.natAbs / 2 : Nat) : Int) else -((x.natAbs + d.natAbs / 2 : Nat) : Int)) = s
  have hB : (2 : Int) ≤ 2 ^ (w - 1) := by
    have : 2 ^ 1 ≤ 2 ^ (w - 1) := Nat.pow_le_pow_right (by decide) (by omega)
    have h2 : ((2 ^ (w - 1) : Nat) : Int) = 2 ^ (w - 1) := by simp
    omega
  unfold signed cdiv
  by_cases hd0 : d = 0
  · subst hd0
    constructor
    · intro q hq
      split at hq
      · rw [Option.bind_some, if_pos rfl] at hq; cases hq
      · cases hq
    · constructor
      · exact fun _ => Or.inl rfl
      · intro _
        split <;> simp
  · have key := tdiv_closest x d hd0
    rw [hs] at key
    unfold signed
    generalize hB' : (2 : Int) ^ (w - 1) = B at *
    have hsr : s.tdiv d = s.tdiv d := rfl
    constructor
    · intro q hq
      split at hq
      · rw [Option.bind_some] at hq
        split at hq
        · cases hq; exact key
        · cases hq
      · cases hq
    · by_cases h1 : -B ≤ s ∧ s < B
      · rw [if_pos h1, Option.bind_some, if_neg hd0]
        have hq : s.tdiv d < -B ∨ B ≤ s.tdiv d → d = -1 ∧ s = -B := by
          intro h
          have hn := Int.natAbs_tdiv s d
          have hn' : (s.tdiv d).natAbs = s.natAbs / d.natAbs := hn
          have hle : s.natAbs / d.natAbs ≤ s.natAbs := Nat.div_le_self ..
          have hB1 : s.natAbs = B.natAbs := by omega
          have hsB : s = -B := by omega
          by_cases h3 : d.natAbs = 1
          · have : d = 1 ∨ d = -1 := by omega
            rcases this with rfl | rfl
            · rw [Int.tdiv_one] at h; omega
            · exact ⟨rfl, hsB⟩
          · exfalso
            have : s.natAbs / d.natAbs ≤ s.natAbs / 2 := Nat.div_le_div_left (by omega) (by decide)
            omega
        constructor
        · intro h
          split at h
          · cases h
          · rename_i h2
            obtain ⟨e1, e2⟩ := hq (by omega)
            right; right; right
            refine ⟨e1, ?_⟩
            subst e1
            split at hs <;> omega
        · rintro (h | h | h | h)
          · exact absurd h hd0
          · rw [if_pos h.1] at hs; omega
          · rw [if_neg (by omega)] at hs; omega
          · obtain ⟨rfl, h⟩ := h
            rw [if_neg (by omega)] at hs
            have e : s = -B := by omega
            rw [if_neg]
            rw [e, show (-1 : Int) = -(1 : Int) by rfl, Int.tdiv_neg, Int.tdiv_one]
            omega
      · rw [if_neg h1]
        refine ⟨fun _ => ?_, fun _ => rfl⟩
        split at hs <;> omega

/-- C88 fails for signed numbers too: the closest quotient of the greatest `int` and 2 is undefined behaviour. -/
theorem div_closest_signed_violated : divClosest 32 2147483647 2 = none ∧ Nearest 2147483647 2 1073741824 := by
  refine ⟨by decide +kernel, ?_⟩
  have := nearest_nat 2147483647 2 (by decide)
  exact this

/-- C88. Minimum, maximum and clamping with respect to any total order: one of the operands, not above (below) both; the value brought into the range, unchanged
if it is in it already. -/
theorem minmax_correct {α : Type} (lt : α → α → Bool) (ho : Order lt) (a b lo hi : α) :
    ((Rounding.min lt a b = a ∨ Rounding.min lt a b = b) ∧ lt a (Rounding.min lt a b) = false ∧ lt b (Rounding.min lt a b) = false) ∧
    ((Rounding.max lt a b = a ∨ Rounding.max lt a b = b) ∧ lt (Rounding.max lt a b) a = false ∧ lt (Rounding.max lt a b) b = false) ∧
    minAdj lt a b = Rounding.min lt a b ∧ maxAdj lt a b = Rounding.max lt a b ∧
    (lt hi lo = false → clamp lt a lo hi = if lt a lo then lo else if lt hi a then hi else a) := by
  have asym : ∀ x y, lt x y = true → lt y x = false := by
    intro x y h
    cases h2 : lt y x with
    | false => rfl
    | true => have := ho.trans _ _ _ h h2; rw [ho.irrefl] at this; cases this
  refine ⟨?_, ?_, rfl, rfl, fun hl => ?_⟩
  · unfold Rounding.min
    split
    · rename_i h
      exact ⟨Or.inl rfl, ho.irrefl _, asym _ _ h⟩
    · rename_i h
      exact ⟨Or.inr rfl, by simpa using h, ho.irrefl _⟩
  · unfold Rounding.max
    split
    · rename_i h
      exact ⟨Or.inl rfl, ho.irrefl _, asym _ _ h⟩
    · rename_i h
      exact ⟨Or.inr rfl, by simpa using h, ho.irrefl _⟩
  · unfold clamp Rounding.min Rounding.max
    cases h1 : lt lo a with
    | true =>
      have := asym _ _ h1
      simp only [this, if_true, Bool.false_eq_true, if_false]
      cases h2 : lt a hi with
      | true => simp [asym _ _ h2]
      | false =>
        simp only [Bool.false_eq_true, if_false]
        cases h3 : lt hi a with
        | true => rfl
        | false => simpa using ho.total hi a h3 h2
    | false =>
      simp only [Bool.false_eq_true, if_false]
      have hb : (if lt lo hi = true then lo else hi) = lo := by
        split
        · rfl
        · rename_i h; exact ho.total _ _ hl (by simpa using h)
      rw [hb]
      cases h2 : lt a lo with
      | true => rfl
      | false =>
        have e := ho.total _ _ h1 h2
        subst e
        simp [hl]

/-- C88. The halves of a word put together give the word. -/
theorem halves_correct (a : BitVec 32) (b : BitVec 64) : upper16 a ++ lower16 a = a ∧ upper32 b ++ lower32 b = b := by
  constructor
  · refine BitVec.eq_of_toNat_eq ?_
    rw [BitVec.toNat_append, upper16, lower16, BitVec.toNat_setWidth, BitVec.toNat_setWidth, BitVec.toNat_and, BitVec.toNat_ushiftRight,
      ← Nat.shiftLeft_add_eq_or_of_lt (Nat.mod_lt _ (by decide))]
    have e : a.toNat &&& (0xffff : BitVec 32).toNat = a.toNat % 65536 := Nat.and_two_pow_sub_one_eq_mod a.toNat 16
    rw [e, Nat.shiftLeft_eq, Nat.shiftRight_eq_div_pow]
    have := a.isLt
    omega
  · refine BitVec.eq_of_toNat_eq ?_
    rw [BitVec.toNat_append, upper32, lower32, BitVec.toNat_setWidth, BitVec.toNat_setWidth, BitVec.toNat_and, BitVec.toNat_ushiftRight, BitVec.toNat_ushiftRight,
      ← Nat.shiftLeft_add_eq_or_of_lt (Nat.mod_lt _ (by decide))]
    have e : b.toNat &&& (0xffffffff : BitVec 64).toNat = b.toNat % 4294967296 := Nat.and_two_pow_sub_one_eq_mod b.toNat 32
    rw [e, Nat.shiftLeft_eq, Nat.shiftRight_eq_div_pow, Nat.shiftRight_eq_div_pow]
    have := b.isLt
    omega

example : roundUp (100 : BitVec 64) (16 : BitVec 32) = 112 ∧ roundDown (100 : BitVec 64) (16 : BitVec 32) = 96 := by decide
example : divRoundUp (100 : BitVec 32) 7 = some 15 ∧ divRoundUp (0xffffffff : BitVec 32) 2 = some 0 := by decide
example : divClosest 32 (-5) 2 = some (-3) ∧ divClosest 32 7 (-4) = some (-2) ∧ divClosest 32 (-7) (-5) = some 1 ∧ divClosest 32 (-2147483648) (-1) = none := by decide
example : Order (fun a b : Int => decide (a < b)) := ⟨by simp, by intro a b c; simp; omega, by intro a b; simp; omega⟩

end Bfdev.Rounding

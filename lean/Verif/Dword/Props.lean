import Verif.Dword.Lemmas
/-!
C44: double-word arithmetic.
-/
namespace Bfdev.Dword

/-- Dividing everything by a common factor. -/
theorem unscale {N q d r P : Nat} (hP : 0 < P) (h : N * P = q * (d * P) + r) (hr : r < d * P) : N = q * d + r / P ∧ r / P < d := by
  have h1 : r = (N - q * d) * P := by
    rw [Nat.sub_mul, h, ← Nat.mul_assoc]; omega
  have h2 : r / P = N - q * d := by rw [h1]; exact Nat.mul_div_cancel _ hP
  refine ⟨?_, by rw [Nat.div_lt_iff_lt_mul hP]; exact hr⟩
  rw [h2]
  have : q * d ≤ N := by
    apply Classical.byContradiction
    intro hc
    have h3 : (N + 1) * P ≤ q * d * P := Nat.mul_le_mul_right P (by omega)
    rw [Nat.add_mul, Nat.mul_assoc q] at h3
    omega
  omega

theorem arith1 {X M Y R D : Nat} (h : X + M = Y + R) (h1 : R < M) (h2 : 1 * D ≤ Y) (h3 : M ≤ D) : X = Y - 1 * D + (R + D - M) := by omega
theorem arith2 {M R D : Nat} (h : R < M) (h1 : M ≤ D) : R + D - M < D := by omega
theorem arith3 {X M Y R : Nat} (h : X + M = Y + R) (h1 : M ≤ R) : X = Y + (R - M) := by omega

theorem dw_lt {a b : Nat} (h1 : a < W64) (h2 : b < W64) : a * W64 + b < W64 * W64 := by simp only [W64] at *; omega
theorem dw_mono {a b c d : Nat} (h1 : a < c) (h2 : b < W64) : a * W64 + b < c * W64 + d := by simp only [W64] at *; omega

/-- C44: the division of a double word by a word is exact for every dividend and every non-zero divisor. -/
theorem udiv_correct (n0 n1 d : Nat) (h0 : n0 < W64) (h1 : n1 < W64) (hd0 : d ≠ 0) (hd : d < W64) :
    ∃ q0 q1 r, udiv n0 n1 d = some ((q0, q1), r) ∧ q0 < W64 ∧ q1 < W64 ∧
      n1 * W64 + n0 = (q1 * W64 + q0) * d + r ∧ r < d := by
  obtain ⟨bm, hbm, hlt, hlo, hhi⟩ := clz_some d hd0 hd
  have hshl : shl d bm = d * 2 ^ bm := Nat.mod_eq_of_lt hhi
  unfold udiv
  by_cases c1 : d > n1
  · rw [if_pos c1, hbm, Option.map_some]
    by_cases c0 : bm = 0
    · subst c0
      simp only [ne_eq, not_true, if_false]
      simp only [Nat.pow_zero, Nat.mul_one] at hlo hhi
      obtain ⟨q, r, e, e1, e2, e3⟩ := qrnnd_correct n1 n0 d hlo hd c1 h0
      refine ⟨q, 0, r, ?_, e3, by decide, ?_, e2⟩
      · rw [e]; simp [shr]
      · rw [e1, Nat.zero_mul, Nat.zero_add]
    · simp only [ne_eq, c0, not_false_eq_true, if_true]
      obtain ⟨s1, s2, s3, s4, s5, s6⟩ := shift_dword n0 n1 bm (by omega) hlt h0 h1
      have hz : shr n1 (64 - bm) = 0 := by
        unfold shr
        apply Nat.div_eq_of_lt
        have hp : 2 ^ (64 - bm) * 2 ^ bm = W64 := by rw [← Nat.pow_add, show 64 - bm + bm = 64 by omega]
        apply Classical.byContradiction
        intro hc
        have h6 : 2 ^ (64 - bm) * 2 ^ bm ≤ n1 * 2 ^ bm := Nat.mul_le_mul_right _ (by omega)
        have h7 : n1 * 2 ^ bm ≤ d * 2 ^ bm := Nat.mul_le_mul_right _ (by omega)
        omega
      rw [hz, Nat.zero_mul, Nat.zero_add] at s1
      have hlt2 : (shl n1 bm ||| shr n0 (64 - bm)) < d * 2 ^ bm := by
        have h8 : n1 * 2 ^ bm + 2 ^ bm ≤ d * 2 ^ bm := by rw [← Nat.succ_mul]; exact Nat.mul_le_mul_right _ c1
        have h9 : shl n1 bm ≤ n1 * 2 ^ bm := Nat.mod_le _ _
        rw [s5]; omega
      rw [hshl]
      obtain ⟨q, r, e, e1, e2, e3⟩ := qrnnd_correct _ (shl n0 bm) (d * 2 ^ bm) hlo hhi hlt2 s3
      rw [e]
      rw [← s1] at e1
      obtain ⟨u1, u2⟩ := unscale (Nat.two_pow_pos bm) e1 e2
      exact ⟨q, 0, r / 2 ^ bm, rfl, e3, by decide, by rw [Nat.zero_mul, Nat.zero_add]; exact u1, u2⟩
  · rw [if_neg c1, if_neg hd0, hbm, Option.map_some]
    by_cases c0 : bm = 0
    · subst c0
      simp only [if_true]
      simp only [Nat.pow_zero, Nat.mul_one] at hlo hhi
      have hs : wsub n1 d = n1 - d := wsub_le (by omega) h1
      rw [hs]
      obtain ⟨q, r, e, e1, e2, e3⟩ := qrnnd_correct (n1 - d) n0 d hlo hd (by simp only [W64] at *; omega) h0
      refine ⟨q, 1, r, by rw [e]; simp [shr], e3, by decide, ?_, e2⟩
      rw [Nat.sub_mul] at e1
      have : d * W64 ≤ n1 * W64 := Nat.mul_le_mul_right _ (by omega)
      rw [Nat.one_mul, Nat.add_mul, Nat.mul_comm W64 d]
      omega
    · simp only [c0, if_false]
      obtain ⟨s1, s2, s3, s4, s5, s6⟩ := shift_dword n0 n1 bm (by omega) hlt h0 h1
      rw [hshl]
      have h2p : 2 ^ bm ≤ d * 2 ^ bm := by
        have := Nat.mul_le_mul_right (2 ^ bm) (show 1 ≤ d by omega)
        rwa [Nat.one_mul] at this
      obtain ⟨q1, r1, e, e1, e2, e3⟩ := qrnnd_correct (shr n1 (64 - bm)) _ (d * 2 ^ bm) hlo hhi (by omega) s2
      rw [e]
      obtain ⟨q0, r0, g, g1, g2, g3⟩ := qrnnd_correct r1 (shl n0 bm) (d * 2 ^ bm) hlo hhi e2 s3
      simp only [g]
      have h10 : (n1 * W64 + n0) * 2 ^ bm = (q1 * W64 + q0) * (d * 2 ^ bm) + r0 := by
        rw [s1, Nat.add_mul, Nat.mul_assoc q1, Nat.mul_comm W64 (d * 2 ^ bm), ← Nat.mul_assoc q1]
        exact three_words e1 g1
      obtain ⟨u1, u2⟩ := unscale (Nat.two_pow_pos bm) h10 g2
      exact ⟨q0, q1, r0 / 2 ^ bm, rfl, g3, e3, u1, u2⟩

/-- The division by zero stops. -/
theorem udiv_zero (n0 n1 : Nat) : udiv n0 n1 0 = none := by simp [udiv]

/-- The case of a divisor with its top bit set is right outside the box where the code compares the two words one by one. -/
theorem divdTop_correct (n0 n1 d0 d1 : Nat) (h0 : n0 < W64) (h1 : n1 < W64) (g0 : d0 < W64) (g1 : d1 < W64) (hd : 2 ^ 63 ≤ d1)
    (guard : n1 < d1 → n0 < d0) : ∃ q r0 r1, divdTop n0 n1 d0 d1 = (q, (r0, r1)) ∧ q < W64 ∧ r0 < W64 ∧ r1 < W64 ∧
      n1 * W64 + n0 = q * (d1 * W64 + d0) + (r1 * W64 + r0) ∧ r1 * W64 + r0 < d1 * W64 + d0 := by
  unfold divdTop
  by_cases c : n1 ≤ d1 ∧ n0 < d0
  · rw [if_pos c]
    exact ⟨0, n0, n1, rfl, by decide, h0, h1, by rw [Nat.zero_mul, Nat.zero_add], by simp only [W64] at *; omega⟩
  · rw [if_neg c]
    obtain ⟨e1, e2, e3⟩ := subd_correct n1 n0 d1 d0 h1 h0 g1 g0
    have hN : n1 * W64 + n0 < W64 * W64 := by simp only [W64] at *; omega
    have hle : d1 * W64 + d0 ≤ n1 * W64 + n0 := by
      simp only [W64] at *
      omega
    rw [mod_plain hN hle] at e1
    refine ⟨1, _, _, rfl, by decide, e3, e2, by rw [e1, Nat.one_mul]; exact (Nat.add_sub_cancel' hle).symm, by rw [e1]; simp only [W64] at *; omega⟩

theorem divdShift_correct (n0 n1 d0 d1 bm : Nat) (h0 : n0 < W64) (h1 : n1 < W64) (g0 : d0 < W64) (g1 : d1 < W64)
    (hb : 0 < bm) (hb' : bm < 64) (hlo : 2 ^ 63 ≤ d1 * 2 ^ bm) (hhi : d1 * 2 ^ bm < W64) :
    ∃ q r0 r1, divdShift n0 n1 d0 d1 bm = (q, (r0, r1)) ∧ q < W64 ∧ r0 < W64 ∧ r1 < W64 ∧
      n1 * W64 + n0 = q * (d1 * W64 + d0) + (r1 * W64 + r0) ∧ r1 * W64 + r0 < d1 * W64 + d0 := by
  obtain ⟨s1, s2, s3, s4, s5, s6⟩ := shift_dword n0 n1 bm hb hb' h0 h1
  obtain ⟨t1, t2, t3, t4, t5, t6⟩ := shift_dword d0 d1 bm hb hb' g0 g1
  have hp : 2 ^ (64 - bm) * 2 ^ bm = W64 := by rw [← Nat.pow_add, show 64 - bm + bm = 64 by omega]
  have hdz : shr d1 (64 - bm) = 0 := by
    unfold shr
    apply Nat.div_eq_of_lt
    apply Classical.byContradiction
    intro hc
    have h6 : 2 ^ (64 - bm) * 2 ^ bm ≤ d1 * 2 ^ bm := Nat.mul_le_mul_right _ (by omega)
    omega
  rw [hdz, Nat.zero_mul, Nat.zero_add] at t1
  have hshl : shl d1 bm = d1 * 2 ^ bm := Nat.mod_eq_of_lt hhi
  have hD1 : 2 ^ 63 ≤ (shl d1 bm ||| shr d0 (64 - bm)) := by rw [t5, hshl]; omega
  have hd0m : ∃ k, shl d0 bm = k * 2 ^ bm ∧ k < 2 ^ (64 - bm) := by
    unfold shl w64
    rw [← hp, Nat.mul_comm d0, Nat.mul_comm (2 ^ (64 - bm)), Nat.mul_mod_mul_left]
    exact ⟨_, Nat.mul_comm _ _, Nat.mod_lt _ (Nat.two_pow_pos _)⟩
  unfold divdShift
  simp only
  generalize (shl d1 bm ||| shr d0 (64 - bm)) = D1 at *
  generalize shl d0 bm = D0 at *
  generalize shr n1 (64 - bm) = N2 at *
  generalize (shl n1 bm ||| shr n0 (64 - bm)) = N1 at *
  generalize shl n0 bm = N0 at *
  clear t5 t6 s5 s6 hdz hshl t4
  have h2p : 2 ^ bm ≤ 2 ^ 63 := Nat.pow_le_pow_right (by decide) (by omega)
  obtain ⟨q, R1, e, e1, e2, e3⟩ := qrnnd_correct N2 N1 D1 hD1 t2 (by omega) s2
  rw [e]
  simp only
  obtain ⟨m1, m2, m3⟩ := umul_correct q D0 e3 t3
  generalize umul q D0 = m at *
  obtain ⟨mh, ml⟩ := m
  simp only at m1 m2 m3 ⊢
  -- the estimate is at most one too large
  have hest : q * D0 ≤ D1 * W64 + D0 := by
    have hq2 : q < 2 ^ bm * 2 := by
      apply Classical.byContradiction
      intro hc
      have h11 : 2 ^ bm * 2 * 2 ^ 63 ≤ q * D1 := Nat.mul_le_mul (by omega) hD1
      have h12 : N2 * W64 + W64 ≤ 2 ^ bm * W64 := by rw [← Nat.succ_mul]; exact Nat.mul_le_mul_right _ s4
      simp only [W64] at *
      omega
    by_cases hb63 : bm = 63
    · subst hb63
      obtain ⟨k, hk, hk2⟩ := hd0m
      have hk3 : D0 ≤ 2 ^ 63 := by
        have : k * 2 ^ 63 ≤ 1 * 2 ^ 63 := Nat.mul_le_mul_right _ (by omega)
        omega
      have h13 : q * D0 ≤ (W64 - 1) * 2 ^ 63 := Nat.mul_le_mul (by omega) hk3
      simp only [W64] at h13 ⊢
      omega
    · have hb62 : 2 ^ bm * 2 ≤ 2 ^ 63 := by
        rw [← Nat.pow_succ]; exact Nat.pow_le_pow_right (by decide) (by omega)
      have h13 : q * D0 ≤ (2 ^ 63 - 1) * (W64 - 1) := Nat.mul_le_mul (by omega) (by omega)
      simp only [W64] at h13 ⊢
      omega
  have hN : (n1 * W64 + n0) * 2 ^ bm + q * D0 = q * (D1 * W64 + D0) + (R1 * W64 + N0) := by
    have h11 := three_words (W := W64) (N0 := N0) (y := 0) (r0 := R1 * W64 + N0) e1 (by rw [Nat.zero_add])
    rw [s1, h11, Nat.mul_add, ← Nat.mul_assoc q, Nat.add_zero]
    exact Nat.add_right_comm _ _ _
  have hV : D1 * W64 + D0 < W64 * W64 := dw_lt t2 t3
  have hR : R1 * W64 + N0 < D1 * W64 + D0 := dw_mono e2 s3
  have hcmp := cmp_dword mh ml R1 N0 m3 s3
  rw [m1] at hcmp
  -- the corrected quotient and the remainder, still shifted
  have main : ∃ q' mh' ml', (if (decide (mh > R1 ∨ mh = R1 ∧ ml > N0)) = true then wsub q 1 else q) = q' ∧
      (if (decide (mh > R1 ∨ mh = R1 ∧ ml > N0)) = true then subd mh ml D1 D0 else (mh, ml)) = (mh', ml') ∧ mh' < W64 ∧ ml' < W64 ∧
      q' < W64 ∧ (n1 * W64 + n0) * 2 ^ bm = q' * (D1 * W64 + D0) +
        (R1 * W64 + N0 + W64 * W64 - (mh' * W64 + ml')) % (W64 * W64) ∧
      (R1 * W64 + N0 + W64 * W64 - (mh' * W64 + ml')) % (W64 * W64) < D1 * W64 + D0 := by
    by_cases c : mh > R1 ∨ mh = R1 ∧ ml > N0
    · have hgt := hcmp.1 c
      rw [if_pos (decide_eq_true c), if_pos (decide_eq_true c)]
      have hq1 : 1 ≤ q := by
        rcases Nat.eq_zero_or_pos q with e | e
        · rw [e, Nat.zero_mul] at hgt; exact absurd hgt (Nat.not_lt_zero _)
        · exact e
      obtain ⟨u1, u2, u3⟩ := subd_correct mh ml D1 D0 m2 m3 t2 t3
      rw [m1] at u1
      have hback := mod_back hV hest hR hgt
      rw [wsub_le hq1 e3]
      have hqd : (q - 1) * (D1 * W64 + D0) = q * (D1 * W64 + D0) - 1 * (D1 * W64 + D0) := Nat.sub_mul _ _ _
      have hqd1 : 1 * (D1 * W64 + D0) ≤ q * (D1 * W64 + D0) := Nat.mul_le_mul_right _ hq1
      refine ⟨q - 1, (subd mh ml D1 D0).1, (subd mh ml D1 D0).2, rfl, rfl, u2, u3, by omega, ?_, ?_⟩
      · rw [u1, hback, hqd]; exact arith1 hN hgt hqd1 hest
      · rw [u1, hback]; exact arith2 hgt hest
    · have hle : q * D0 ≤ R1 * W64 + N0 := Nat.le_of_not_lt fun h => c (hcmp.2 h)
      rw [if_neg (by rw [decide_eq_true_iff]; exact c), if_neg (by rw [decide_eq_true_iff]; exact c)]
      have hpl := mod_plain (Nat.lt_trans hR hV) hle
      refine ⟨q, mh, ml, rfl, rfl, m2, m3, e3, ?_, ?_⟩
      · rw [m1, hpl]; exact arith3 hN hle
      · rw [m1, hpl]; exact Nat.lt_of_le_of_lt (Nat.sub_le _ _) hR
  obtain ⟨q', mh', ml', k1, k2, k3, k4, k5, k6, k7⟩ := main
  rw [k1, k2]
  simp only
  have hRlt : R1 < W64 := Nat.lt_trans e2 t2
  obtain ⟨u1, u2, u3⟩ := subd_correct R1 N0 mh' ml' hRlt s3 k3 k4
  rw [← u1] at k6 k7
  generalize subd R1 N0 mh' ml' = r at *
  obtain ⟨rh, rl⟩ := r
  simp only at u1 u2 u3 k6 k7 ⊢
  rw [← t1] at k6 k7
  obtain ⟨v1, v2⟩ := unscale (Nat.two_pow_pos bm) k6 k7
  -- shifting the remainder back
  have hback : (rh * W64 + rl) / 2 ^ bm = shr rh bm * W64 + (shl rh (64 - bm) ||| shr rl bm) ∧ (shl rh (64 - bm) ||| shr rl bm) < W64 := by
    obtain ⟨w1, w2, w3, w4, w5, w6⟩ := shift_dword rl rh (64 - bm) (by omega) (by omega) u3 u2
    rw [show 64 - (64 - bm) = bm by omega] at w1 w2
    refine ⟨?_, w2⟩
    have hp' : 2 ^ bm * 2 ^ (64 - bm) = W64 := by rw [Nat.mul_comm]; exact hp
    have : (rh * W64 + rl) / 2 ^ bm = (rh * W64 + rl) * 2 ^ (64 - bm) / W64 := by
      rw [← hp']; exact (Nat.mul_div_mul_right _ _ (Nat.two_pow_pos _)).symm
    rw [this, w1]
    have e5 : shr rh bm * (W64 * W64) + (shl rh (64 - bm) ||| shr rl bm) * W64 + shl rl (64 - bm) =
        W64 * (shr rh bm * W64 + (shl rh (64 - bm) ||| shr rl bm)) + shl rl (64 - bm) := by
      rw [Nat.mul_add, Nat.mul_comm W64 (_ * W64), Nat.mul_assoc, Nat.mul_comm W64 (_ ||| _)]
    rw [e5, Nat.mul_add_div (by decide), Nat.div_eq_of_lt w3, Nat.add_zero]
  rw [hback.1] at v1 v2
  exact ⟨q', _, _, rfl, k5, hback.2, Nat.lt_of_le_of_lt (Nat.div_le_self _ _) u2, v1, v2⟩

/-- C44: the division of a double word by a double word with a non-zero high word is exact, unless the divisor has its top bit set, the high
word of the dividend is below that of the divisor and the low word is not. What is missing: that box, see `udivd_violated`, and divisors
of one word, for which the high word of the remainder is never stored, see `udivd_rem_unset`. -/
theorem udivd_partial (n0 n1 d0 d1 : Nat) (h0 : n0 < W64) (h1 : n1 < W64) (g0 : d0 < W64) (g1 : d1 < W64) (hd : d1 ≠ 0)
    (guard : 2 ^ 63 ≤ d1 → n1 < d1 → n0 < d0) :
    ∃ q0 r0 r1, udivd n0 n1 d0 d1 = some ((q0, 0), (r0, some r1)) ∧ q0 < W64 ∧ r0 < W64 ∧ r1 < W64 ∧
      n1 * W64 + n0 = q0 * (d1 * W64 + d0) + (r1 * W64 + r0) ∧ r1 * W64 + r0 < d1 * W64 + d0 := by
  obtain ⟨bm, hbm, hlt, hlo, hhi⟩ := clz_some d1 hd g1
  unfold udivd
  rw [if_neg hd, hbm, Option.map_some]
  by_cases c : bm = 0
  · subst c
    rw [if_pos rfl]
    rw [Nat.pow_zero, Nat.mul_one] at hlo
    obtain ⟨q, r0, r1, e, e1⟩ := divdTop_correct n0 n1 d0 d1 h0 h1 g0 g1 hlo (guard hlo)
    exact ⟨q, r0, r1, by rw [e], e1⟩
  · rw [if_neg c]
    obtain ⟨q, r0, r1, e, e1⟩ := divdShift_correct n0 n1 d0 d1 bm h0 h1 g0 g1 (by omega) hlt hlo hhi
    exact ⟨q, r0, r1, by rw [e], e1⟩

/-- C44 fails in the whole of that box: the quotient is zero, the code answers one. -/
theorem udivd_violated (n0 n1 d0 d1 : Nat) (h0 : n0 < W64) (h1 : n1 < d1) (hd : 2 ^ 63 ≤ d1) (hd' : d1 < W64) (hbox : d0 ≤ n0) :
    (n1 * W64 + n0) / (d1 * W64 + d0) = 0 ∧ ∃ r, udivd n0 n1 d0 d1 = some ((1, 0), r) := by
  refine ⟨Nat.div_eq_of_lt (by simp only [W64] at *; omega), ?_⟩
  have hclz : Scan.clz (BitVec.ofNat 64 d1) = some 0 := by
    obtain ⟨bm, hbm, hlt, hlo, hhi⟩ := clz_some d1 (by omega) hd'
    rcases Nat.eq_zero_or_pos bm with e | e
    · rw [hbm, e]
    · exfalso
      have h3 : 2 ≤ 2 ^ bm := by
        have := Nat.pow_le_pow_right (show 0 < 2 by decide) e
        omega
      have := Nat.mul_le_mul hd h3
      simp only [W64] at *
      omega
  unfold udivd
  rw [if_neg (by omega), hclz, Option.map_some, if_pos rfl, divdTop, if_neg (by omega)]
  exact ⟨_, rfl⟩

/-- C44 fails for a divisor of one word: quotient and low word are right, the high word of the remainder is left as it was. -/
theorem udivd_rem_unset (n0 n1 d0 : Nat) (h0 : n0 < W64) (h1 : n1 < W64) (hd0 : d0 ≠ 0) (hd : d0 < W64) :
    ∃ q0 q1 r, udivd n0 n1 d0 0 = some ((q0, q1), (r, none)) ∧ n1 * W64 + n0 = (q1 * W64 + q0) * d0 + r ∧ r < d0 := by
  obtain ⟨q0, q1, r, e, -, -, e1, e2⟩ := udiv_correct n0 n1 d0 h0 h1 hd0 hd
  exact ⟨q0, q1, r, by unfold udivd; rw [if_pos rfl, e]; rfl, e1, e2⟩

/-- C44: the multiplication of two words is exact, addition and subtraction are exact modulo the double word. -/
theorem dword_arith (a b c d : Nat) (ha : a < W64) (hb : b < W64) (hc : c < W64) (hd : d < W64) :
    (umul a b).1 * W64 + (umul a b).2 = a * b ∧
    (addd a b c d).1 * W64 + (addd a b c d).2 = (a * W64 + b + (c * W64 + d)) % (W64 * W64) ∧
    (subd a b c d).1 * W64 + (subd a b c d).2 = (a * W64 + b + W64 * W64 - (c * W64 + d)) % (W64 * W64) :=
  ⟨(umul_correct a b ha hb).1, (addd_correct a b c d ha hb hc hd).1, (subd_correct a b c d ha hb hc hd).1⟩

/-! Non-trivial cases: the corrections, all paths, the failing box. -/
example : udiv 0xffffffffffffffff 0x7fffffffffffffff 0x8000000000000001 = some ((18446744073709551614, 0), 1) := by decide +kernel
example : udiv 5 7 3 = some ((6148914691236517207, 2), 0) := by decide +kernel
example : udivd 5 7 3 1 = some ((6, 0), (18446744073709551603, some 0)) := by decide +kernel
example : udivd 5 0x8000000000000007 9 0x8000000000000001 = some ((1, 0), (18446744073709551612, some 5)) := by decide +kernel
example : udivd 9 0x8000000000000000 5 0x8000000000000001 = some ((1, 0), (4, some 18446744073709551615)) := by decide +kernel
example : (2 ^ 63 ≤ 0x8000000000000001 → 0x8000000000000007 < 0x8000000000000001 → 5 < 9) := by decide

end Bfdev.Dword

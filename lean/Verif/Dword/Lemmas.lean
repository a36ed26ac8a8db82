import Verif.Dword.Model
import Verif.Scan.Lemmas
/-! Arithmetic of double words. -/
namespace Bfdev.Dword

/-- A multiple of a power of two and a smaller number share no bit. -/
theorem or_add (a b k : Nat) (h : b < 2 ^ k) : (a * 2 ^ k) ||| b = a * 2 ^ k + b := by
  have := Nat.two_pow_add_eq_or_of_lt h a
  rw [Nat.mul_comm] at this
  exact this.symm

theorem or_half (a b : Nat) (h : b < half) : (a * half) ||| b = a * half + b := or_add a b 32 h

theorem wsub_le {a b : Nat} (h : b ≤ a) (ha : a < W64) : wsub a b = a - b := by
  unfold wsub; simp only [W64] at *; omega

theorem fix_correct (Q r M D T : Nat) (hD : 2 ^ 63 ≤ D) (hD' : D < W64) (hM : M < W64) (hQ : Q < W64) (hr : r < D)
    (hT : T + M = Q * D + r) (h0 : Q = 0 → M = 0) (h1 : Q ≤ 1 → M ≤ D) :
    ∃ q' r', fix Q r M D = (q', r') ∧ T = q' * D + r' ∧ r' < D := by
  unfold fix
  by_cases c1 : r < M
  · rw [if_pos c1]
    have hQ0 : 1 ≤ Q := by
      rcases Nat.eq_zero_or_pos Q with e | e
      · have := h0 e; omega
      · exact e
    have hQD : 1 * D ≤ Q * D := Nat.mul_le_mul_right D hQ0
    rw [wsub_le hQ0 hQ]
    have e1 : (Q - 1) * D = Q * D - 1 * D := Nat.sub_mul _ _ _
    by_cases c2 : r + D < W64
    · have hrD : w64 (r + D) = r + D := Nat.mod_eq_of_lt c2
      simp only [hrD]
      rw [if_pos (show r + D ≥ D by omega)]
      by_cases c3 : r + D < M
      · rw [if_pos c3]
        have hQ2 : 2 ≤ Q := by
          apply Classical.byContradiction
          intro hc
          have := h1 (by omega)
          omega
        have hQD2 : 2 * D ≤ Q * D := Nat.mul_le_mul_right D hQ2
        have e2 : (Q - 2) * D = Q * D - 2 * D := Nat.sub_mul _ _ _
        rw [wsub_le (by omega) (by omega)]
        have : wsub (w64 (r + D + D)) M = r + D + D - M := by
          clear h0 h1 hT e1 e2 hQD hQD2 hQ hQ0 hQ2
          unfold wsub w64
          simp only [W64] at *
          omega
        rw [this]
        refine ⟨_, _, rfl, ?_, ?_⟩
        · rw [show Q - 1 - 1 = Q - 2 by omega, e2]
          clear h0 h1 e1 this hQ hQ0 hQ2 hQD
          generalize Q * D = P at *
          simp only [W64] at *
          omega
        · clear h0 h1 hT e1 e2 hQD hQD2 hQ hQ0 hQ2
          simp only [W64] at *; omega
      · rw [if_neg c3, wsub_le (by omega) c2]
        refine ⟨_, _, rfl, ?_, by omega⟩
        rw [e1]
        clear h0 h1 e1
        generalize Q * D = P at *
        omega
    · have hrD : w64 (r + D) = r + D - W64 := by
        clear h0 h1 hT e1 hQD
        unfold w64
        simp only [W64] at *
        omega
      have h3 : ¬ r + D - W64 ≥ D := by omega
      simp only [hrD]
      rw [if_neg h3]
      have : wsub (r + D - W64) M = r + D - M := by
        clear h0 h1 hT e1 hQD
        unfold wsub
        simp only [W64] at *
        omega
      rw [this]
      refine ⟨_, _, rfl, ?_, by omega⟩
      rw [e1]
      clear h0 h1 e1
      generalize Q * D = P at *
      omega
  · rw [if_neg c1, wsub_le (by omega) (by omega)]
    exact ⟨_, _, rfl, by omega, by omega⟩

theorem digit_correct (n a d1 d0 : Nat) (h1 : 2 ^ 31 ≤ d1) (h1' : d1 < half) (h0 : d0 < half) (hn : n < d1 * half + d0) (ha : a < half) :
    ∃ q r, digit n a (d1 * half + d0) d1 d0 = (q, r) ∧ n * half + a = q * (d1 * half + d0) + r ∧ r < d1 * half + d0 ∧ q < half := by
  have hd : 0 < d1 := by omega
  have hdm : d1 * (n / d1) + n % d1 = n := Nat.div_add_mod n d1
  have hmod := Nat.mod_lt n hd
  have hq : n / d1 < half + 2 := by
    apply Classical.byContradiction
    intro hc
    have : d1 * (half + 2) ≤ d1 * (n / d1) := Nat.mul_le_mul_left d1 (by omega)
    simp only [half] at *
    omega
  have hm : n / d1 * d0 ≤ (half + 1) * (half - 1) := Nat.mul_le_mul (by omega) (by omega)
  have hmlt : n / d1 * d0 < W64 := by
    simp only [half, W64] at *
    omega
  have hmw : w64 (n / d1 * d0) = n / d1 * d0 := Nat.mod_eq_of_lt hmlt
  have hr : w64 (n % d1 * half) ||| a = n % d1 * half + a := by
    have : w64 (n % d1 * half) = n % d1 * half := by
      apply Nat.mod_eq_of_lt
      simp only [half, W64] at *
      omega
    rw [this, or_half _ _ ha]
  have hT : n * half + a + n / d1 * d0 = n / d1 * (d1 * half + d0) + (n % d1 * half + a) := by
    have hD : n / d1 * (d1 * half + d0) = d1 * (n / d1) * half + n / d1 * d0 := by
      rw [Nat.mul_add]
      congr 1
      rw [← Nat.mul_assoc, Nat.mul_comm (n / d1) d1]
    rw [hD]
    simp only [half] at *
    omega
  have hDb : 2 ^ 63 ≤ d1 * half + d0 ∧ d1 * half + d0 < W64 ∧ n % d1 * half + a < d1 * half + d0 := by
    simp only [half, W64] at *; omega
  obtain ⟨q', r', e1, e2, e3⟩ := fix_correct (n / d1) (n % d1 * half + a) (n / d1 * d0) (d1 * half + d0) (n * half + a) hDb.1 hDb.2.1 hmlt
    (by simp only [half, W64] at *; omega) hDb.2.2 hT (fun e => by rw [e, Nat.zero_mul])
    (fun e => by have := Nat.mul_le_mul_right d0 e; rw [Nat.one_mul] at this; omega)
  refine ⟨q', r', ?_, e2, e3, ?_⟩
  · unfold digit; simp only [hmw, hr]; exact e1
  · apply Classical.byContradiction
    intro hc
    have h4 : half * (d1 * half + d0) ≤ q' * (d1 * half + d0) := Nat.mul_le_mul_right _ (by omega)
    have h5 : half * n + half ≤ half * (d1 * half + d0) := by rw [← Nat.mul_succ]; exact Nat.mul_le_mul_left _ hn
    rw [Nat.mul_comm n] at e2
    omega

/-- The 2-by-1 division for a normalised divisor above the high word. -/
theorem qrnnd_correct (sh sl d : Nat) (hd : 2 ^ 63 ≤ d) (hd' : d < W64) (hs : sh < d) (hl : sl < W64) :
    ∃ q r, qrnnd sh sl d = (q, r) ∧ sh * W64 + sl = q * d + r ∧ r < d ∧ q < W64 := by
  have e : higher d * half + lower d = d := by unfold higher lower; rw [Nat.mul_comm]; exact Nat.div_add_mod d half
  have e2 : higher sl * half + lower sl = sl := by unfold higher lower; rw [Nat.mul_comm]; exact Nat.div_add_mod sl half
  have b1 : 2 ^ 31 ≤ higher d ∧ higher d < half := by unfold higher; simp only [half, W64] at *; omega
  have b2 : lower d < half := Nat.mod_lt _ (by decide)
  have b3 : higher sl < half := by unfold higher; simp only [half, W64] at *; omega
  have b4 : lower sl < half := Nat.mod_lt _ (by decide)
  obtain ⟨q1, r1, h1, h2, h3, h4⟩ := digit_correct sh (higher sl) (higher d) (lower d) b1.1 b1.2 b2 (by omega) b3
  rw [e] at h1 h2 h3
  obtain ⟨q0, r0, g1, g2, g3, g4⟩ := digit_correct r1 (lower sl) (higher d) (lower d) b1.1 b1.2 b2 (by omega) b4
  rw [e] at g1 g2 g3
  have hq : w64 (q1 * half) ||| q0 = q1 * half + q0 := by
    have : w64 (q1 * half) = q1 * half := by apply Nat.mod_eq_of_lt; simp only [half, W64] at *; omega
    rw [this, or_half _ _ g4]
  refine ⟨q1 * half + q0, r0, ?_, ?_, g3, by simp only [half, W64] at *; omega⟩
  · unfold qrnnd
    simp only [h1, g1, hq]
  · have e5 : (q1 * half + q0) * d = q1 * d * half + q0 * d := by
      rw [Nat.add_mul, Nat.mul_assoc, Nat.mul_comm half d, ← Nat.mul_assoc]
    rw [e5]
    generalize q1 * d = x at h2 ⊢
    generalize q0 * d = y at g2 ⊢
    generalize higher sl = u at e2 h2
    generalize lower sl = v at e2 g2
    have hW : sh * W64 = sh * half * half := by rw [Nat.mul_assoc]; rfl
    rw [hW, ← e2]
    have h5 : (sh * half + u) * half = (x + r1) * half := by rw [h2]
    rw [Nat.add_mul, Nat.add_mul] at h5
    omega

/-- What the count of leading zeros says. -/
theorem clz_some (d : Nat) (h0 : d ≠ 0) (hd : d < W64) : ∃ bm, Scan.clz (BitVec.ofNat 64 d) = some bm ∧ bm < 64 ∧
    2 ^ 63 ≤ d * 2 ^ bm ∧ d * 2 ^ bm < W64 := by
  have ht : (BitVec.ofNat 64 d).toNat = d := by rw [BitVec.toNat_ofNat]; exact Nat.mod_eq_of_lt hd
  have hne : BitVec.ofNat 64 d ≠ 0 := by intro e; rw [e] at ht; exact h0 ht.symm
  obtain ⟨i, hi⟩ := Scan.exists_last _ hne
  have hlt := hi.lt
  have hp := (Scan.isLast_iff_pow _ i).1 hi
  rw [ht] at hp
  refine ⟨63 - i, Scan.builtinClz_some.2 ⟨by omega, by rwa [show 63 - (63 - i) = i by omega]⟩, by omega, ?_, ?_⟩
  · have : 2 ^ 63 = 2 ^ i * 2 ^ (63 - i) := by rw [← Nat.pow_add]; congr 1; omega
    rw [this]; exact Nat.mul_le_mul_right _ hp.1
  · have : W64 = 2 ^ (i + 1) * 2 ^ (63 - i) := by rw [← Nat.pow_add, show i + 1 + (63 - i) = 64 by omega]
    rw [this]; exact Nat.mul_lt_mul_of_pos_right hp.2 (Nat.two_pow_pos _)

/-- Shifting a double word left by `bm`, the word shifted out on top included. -/
theorem shift_dword (n0 n1 bm : Nat) (hb : 0 < bm) (hb' : bm < 64) (h0 : n0 < W64) (h1 : n1 < W64) :
    (n1 * W64 + n0) * 2 ^ bm = shr n1 (64 - bm) * (W64 * W64) + (shl n1 bm ||| shr n0 (64 - bm)) * W64 + shl n0 bm ∧
    (shl n1 bm ||| shr n0 (64 - bm)) < W64 ∧ shl n0 bm < W64 ∧ shr n1 (64 - bm) < 2 ^ bm ∧
    (shl n1 bm ||| shr n0 (64 - bm)) = shl n1 bm + shr n0 (64 - bm) ∧ shr n0 (64 - bm) < 2 ^ bm := by
  have hp : 2 ^ (64 - bm) * 2 ^ bm = W64 := by rw [← Nat.pow_add, show 64 - bm + bm = 64 by omega]
  have split : ∀ n, n * 2 ^ bm = shr n (64 - bm) * W64 + shl n bm := by
    intro n
    unfold shr shl w64
    have e : n * 2 ^ bm / W64 = n / 2 ^ (64 - bm) := by
      rw [← hp]; exact Nat.mul_div_mul_right _ _ (Nat.two_pow_pos bm)
    rw [← e, Nat.mul_comm (n * 2 ^ bm / W64)]
    exact (Nat.div_add_mod _ _).symm
  have hlt : ∀ n, n < W64 → shr n (64 - bm) < 2 ^ bm := by
    intro n hn
    unfold shr
    rw [Nat.div_lt_iff_lt_mul (Nat.two_pow_pos _), Nat.mul_comm, hp]; exact hn
  have hmul : ∃ k, shl n1 bm = k * 2 ^ bm := by
    unfold shl w64
    rw [← hp, Nat.mul_comm n1, Nat.mul_comm (2 ^ (64 - bm)), Nat.mul_mod_mul_left]
    exact ⟨_, Nat.mul_comm _ _⟩
  obtain ⟨k, hk⟩ := hmul
  have hor : (shl n1 bm ||| shr n0 (64 - bm)) = shl n1 bm + shr n0 (64 - bm) := by
    rw [hk]; exact or_add _ _ _ (hlt n0 h0)
  have hk2 : shl n1 bm < W64 := Nat.mod_lt _ (by decide)
  have hsum : shl n1 bm + shr n0 (64 - bm) < W64 := by
    have hk3 : k < 2 ^ (64 - bm) := by
      apply Classical.byContradiction
      intro hc
      have : 2 ^ (64 - bm) * 2 ^ bm ≤ k * 2 ^ bm := Nat.mul_le_mul_right _ (by omega)
      rw [hp] at this
      omega
    have h3 : (k + 1) * 2 ^ bm ≤ 2 ^ (64 - bm) * 2 ^ bm := Nat.mul_le_mul_right _ (by omega)
    have := hlt n0 h0
    rw [hp, Nat.add_mul, Nat.one_mul] at h3
    omega
  refine ⟨?_, by rw [hor]; exact hsum, Nat.mod_lt _ (by decide), hlt n1 h1, hor, hlt n0 h0⟩
  rw [hor, Nat.add_mul, Nat.mul_assoc n1, Nat.mul_comm W64, ← Nat.mul_assoc, split n1, split n0]
  generalize shr n1 (64 - bm) = a
  generalize shl n1 bm = b
  generalize shr n0 (64 - bm) = c
  generalize shl n0 bm = d
  simp only [W64]
  omega

theorem addd_correct (ah al bh bl : Nat) (h1 : ah < W64) (h2 : al < W64) (h3 : bh < W64) (h4 : bl < W64) :
    (addd ah al bh bl).1 * W64 + (addd ah al bh bl).2 = (ah * W64 + al + (bh * W64 + bl)) % (W64 * W64) ∧ (addd ah al bh bl).2 < W64 := by
  unfold addd w64
  simp only
  split <;> simp only [W64] at * <;> omega

theorem subd_correct (ah al bh bl : Nat) (h1 : ah < W64) (h2 : al < W64) (h3 : bh < W64) (h4 : bl < W64) :
    (subd ah al bh bl).1 * W64 + (subd ah al bh bl).2 = (ah * W64 + al + W64 * W64 - (bh * W64 + bl)) % (W64 * W64) ∧
      (subd ah al bh bl).1 < W64 ∧ (subd ah al bh bl).2 < W64 := by
  unfold subd wsub
  simp only
  split <;> simp only [W64] at * <;> omega

theorem three_words {W N2 N1 N0 x r1 y r0 : Nat} (h1 : N2 * W + N1 = x + r1) (h2 : r1 * W + N0 = y + r0) :
    N2 * (W * W) + N1 * W + N0 = x * W + y + r0 := by
  have h3 : (N2 * W + N1) * W = (x + r1) * W := by rw [h1]
  rw [Nat.add_mul, Nat.add_mul, Nat.mul_assoc] at h3
  omega

/-- Taking off a product that is at most one divisor too large, modulo the double word. -/
theorem mod_back {V m D R : Nat} (hD : D < V) (hm : m ≤ D) (hR : R < D) (h : R < m) :
    (R + V - (m + V - D) % V) % V = R + D - m := by
  rcases Nat.eq_or_lt_of_le hm with e | e
  · subst e
    rw [show m + V - m = V by omega, Nat.mod_self, Nat.sub_zero, Nat.add_mod_right, Nat.mod_eq_of_lt (by omega)]; omega
  · rw [Nat.mod_eq_of_lt (show m + V - D < V by omega)]
    rw [show R + V - (m + V - D) = R + D - m by omega]
    exact Nat.mod_eq_of_lt (by omega)

theorem mod_plain {V m R : Nat} (hR : R < V) (h : m ≤ R) : (R + V - m) % V = R - m := by
  rw [show R + V - m = R - m + V by omega, Nat.add_mod_right]
  exact Nat.mod_eq_of_lt (by omega)

/-- Comparing double words word by word. -/
theorem cmp_dword (a1 a0 b1 b0 : Nat) (h1 : a0 < W64) (h2 : b0 < W64) :
    (a1 > b1 ∨ a1 = b1 ∧ a0 > b0) ↔ b1 * W64 + b0 < a1 * W64 + a0 := by
  simp only [W64] at *
  omega

theorem umul_correct (a b : Nat) (ha : a < W64) (hb : b < W64) :
    (umul a b).1 * W64 + (umul a b).2 = a * b ∧ (umul a b).1 < W64 ∧ (umul a b).2 < W64 := by
  have ea : higher a * half + lower a = a := by unfold higher lower; rw [Nat.mul_comm]; exact Nat.div_add_mod a half
  have eb : higher b * half + lower b = b := by unfold higher lower; rw [Nat.mul_comm]; exact Nat.div_add_mod b half
  have b1 : higher a < half := by unfold higher; simp only [half, W64] at *; omega
  have b2 : lower a < half := Nat.mod_lt _ (by decide)
  have b3 : higher b < half := by unfold higher; simp only [half, W64] at *; omega
  have b4 : lower b < half := Nat.mod_lt _ (by decide)
  have hprod : a * b = higher a * higher b * (half * half) + (lower a * higher b + higher a * lower b) * half + lower a * lower b := by
    have : (higher a * half + lower a) * (higher b * half + lower b) =
        higher a * higher b * (half * half) + (lower a * higher b + higher a * lower b) * half + lower a * lower b := by
      simp only [Nat.add_mul, Nat.mul_add]
      have e1 : higher a * half * (higher b * half) = higher a * higher b * (half * half) := by
        rw [Nat.mul_assoc, Nat.mul_assoc]; congr 1; rw [← Nat.mul_assoc, Nat.mul_comm half (higher b), Nat.mul_assoc]
      have e2 : higher a * half * lower b = higher a * lower b * half := by rw [Nat.mul_assoc, Nat.mul_comm half, Nat.mul_assoc]
      have e3 : lower a * (higher b * half) = lower a * higher b * half := by rw [Nat.mul_assoc]
      rw [e1, e2, e3]
      omega
    rw [ea, eb] at this; exact this
  have m0 : lower a * lower b ≤ (half - 1) * (half - 1) := Nat.mul_le_mul (by omega) (by omega)
  have m1 : lower a * higher b ≤ (half - 1) * (half - 1) := Nat.mul_le_mul (by omega) (by omega)
  have m2 : higher a * lower b ≤ (half - 1) * (half - 1) := Nat.mul_le_mul (by omega) (by omega)
  have m3 : higher a * higher b ≤ (half - 1) * (half - 1) := Nat.mul_le_mul (by omega) (by omega)
  rw [hprod]
  unfold umul
  simp only
  generalize lower a * lower b = x0 at *
  generalize lower a * higher b = x1 at *
  generalize higher a * lower b = x2 at *
  generalize higher a * higher b = x3 at *
  have e0 : w64 x0 = x0 := by apply Nat.mod_eq_of_lt; simp only [half, W64] at *; omega
  have e1 : w64 x1 = x1 := by apply Nat.mod_eq_of_lt; simp only [half, W64] at *; omega
  have e2 : w64 x2 = x2 := by apply Nat.mod_eq_of_lt; simp only [half, W64] at *; omega
  have e3 : w64 x3 = x3 := by apply Nat.mod_eq_of_lt; simp only [half, W64] at *; omega
  rw [e0, e1, e2, e3]
  clear hprod ea eb b1 b2 b3 b4 e0 e1 e2 e3 ha hb
  unfold higher lower
  have hh : w64 (x1 + x0 / half) = x1 + x0 / half := by apply Nat.mod_eq_of_lt; simp only [half, W64] at *; omega
  rw [hh]
  generalize hx0h : x0 / half = h0 at *
  generalize hx0l : x0 % half = l0 at *
  have hx0 : x0 = h0 * half + l0 ∧ l0 < half ∧ h0 < half := by
    have := Nat.div_add_mod x0 half
    have := Nat.mod_lt x0 (show 0 < half by decide)
    simp only [half, W64] at *; omega
  obtain ⟨hx0, hl0, hh0⟩ := hx0
  clear hx0h hx0l
  subst hx0
  by_cases hov : x1 + h0 + x2 < W64
  · have e5 : w64 (x1 + h0 + x2) = x1 + h0 + x2 := Nat.mod_eq_of_lt hov
    rw [e5, if_neg (by omega)]
    generalize hs : x1 + h0 + x2 = s at *
    have hs1 := Nat.div_add_mod s half
    have hs2 := Nat.mod_lt s (show 0 < half by decide)
    generalize s / half = sh at *
    generalize s % half = sl at *
    unfold w64
    simp only [half, W64] at *
    refine ⟨?_, ?_, ?_⟩ <;> omega
  · have e5 : w64 (x1 + h0 + x2) = x1 + h0 + x2 - W64 := by unfold w64; simp only [half, W64] at *; omega
    rw [e5, if_pos (by simp only [half, W64] at *; omega)]
    generalize hs : x1 + h0 + x2 - W64 = s at *
    have hs1 := Nat.div_add_mod s half
    have hs2 := Nat.mod_lt s (show 0 < half by decide)
    generalize s / half = sh at *
    generalize s % half = sl at *
    unfold w64
    simp only [half, W64] at *
    refine ⟨?_, ?_, ?_⟩ <;> omega

end Bfdev.Dword

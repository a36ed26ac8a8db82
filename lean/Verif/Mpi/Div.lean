import Verif.Mpi.Mul
/-! The division routines. -/
namespace Bfdev.Mpi
open Dword

/-! ### Division by one limb -/

theorem quot_zero {W x r d q1 q0 r' : Nat} (hx : x < W) (hr : r < d) (h2 : r * W + x = (q1 * W + q0) * d + r') : q1 = 0 := by
  apply Classical.byContradiction
  intro c
  have k1 : W * d ≤ (q1 * W + q0) * d := Nat.mul_le_mul_right _ (by
    have : 1 * W ≤ q1 * W := Nat.mul_le_mul_right _ (by omega)
    omega)
  have k2 : (r + 1) * W ≤ d * W := Nat.mul_le_mul_right _ hr
  rw [Nat.add_mul, Nat.one_mul, Nat.mul_comm d] at k2
  generalize (q1 * W + q0) * d = z at *
  generalize W * d = z2 at *
  generalize r * W = z3 at *
  omega

/-- Dividing a double word whose high word is below the divisor gives one word. -/
theorem udiv_one (x r d : Nat) (hx : x < W64) (hd : d < W64) (hr : r < d) :
    ∃ q r' h, udiv x r d = some ((q, h), r') ∧ q < W64 ∧ r * W64 + x = q * d + r' ∧ r' < d := by
  obtain ⟨q0, q1, r', e, h0, h1, h2, h3⟩ := udiv_correct x r d hx (by omega) (by omega) hd
  have hq : q1 = 0 := quot_zero hx hr h2
  refine ⟨q0, r', q1, e, h0, ?_, h3⟩
  rw [h2, hq, Nat.zero_mul, Nat.zero_add]

theorem long_step {W P r x q vi r1 A Q r2 : Nat} (h1 : r * W + x = q * vi + r1) (h2 : r1 * P + A = Q * vi + r2) :
    r * (P * W) + (A + P * x) = (Q + P * q) * vi + r2 := by
  have e := congrArg (P * ·) h1
  simp only [Nat.mul_add] at e
  rw [Nat.add_mul, Nat.mul_left_comm r, Nat.mul_assoc P q]
  rw [Nat.mul_comm r1] at h2
  generalize P * (r * W) = z1 at *
  generalize P * x = z2 at *
  generalize P * (q * vi) = z3 at *
  generalize P * r1 = z4 at *
  generalize Q * vi = z5 at *
  omega

theorem val_snoc (l : List Nat) (x : Nat) : val (l ++ [x]) = val l + W64 ^ l.length * x := by
  rw [val_append]; simp [val]

theorem divmodiLoop_ok (a : List Nat) (ha : Limbs a) (vi : Nat) (hv : vi < W64) (n : Nat) : ∀ r q, r < vi →
    ∃ qs r', divmodiLoop a vi n r q = some (qs ++ q, r') ∧ modiLoop a vi n r = some r' ∧ qs.length = n ∧ Limbs qs ∧
      r * W64 ^ n + val (a.take n) = val qs * vi + r' ∧ r' < vi := by
  induction n with
  | zero => intro r q hr; exact ⟨[], r, rfl, rfl, rfl, Limbs.nil, by simp [val], hr⟩
  | succ n ih =>
    intro r q hr
    obtain ⟨q0, r1, h, e, h0, h2, h3⟩ := udiv_one (a.getD n 0) r vi (ha.getD n) hv hr
    obtain ⟨qs, r', i1, i1', i2, i3, i4, i5⟩ := ih r1 (q0 :: q) h3
    refine ⟨qs ++ [q0], r', ?_, ?_, by simp [i2], i3.append (Limbs.cons h0 Limbs.nil), ?_, i5⟩
    · rw [divmodiLoop, e, Option.bind_some, i1]; simp
    · rw [modiLoop, e, Option.bind_some, i1']
    · rw [val_take_succ, val_snoc, i2, Nat.pow_succ]
      exact long_step h2 i4

theorem take_pred {a : List Nat} (hne : a ≠ []) : val a = val (a.take (a.length - 1)) + W64 ^ (a.length - 1) * a.getD (a.length - 1) 0 := by
  have hl := List.length_pos_iff.2 hne
  have := val_take_succ a (a.length - 1)
  rw [show a.length - 1 + 1 = a.length by omega, List.take_length] at this
  exact this

theorem mpaDivmodi_ok {a : List Nat} {vi : Nat} (ha : Limbs a) (hne : a ≠ []) (hv : vi < W64) (h0 : vi ≠ 0) :
    ∃ q r, mpaDivmodi a vi = some (q, r) ∧ mpaModi a vi = some r ∧ q.length = a.length ∧ Limbs q ∧ val a = val q * vi + r ∧ r < vi := by
  have hl := List.length_pos_iff.2 hne
  unfold mpaDivmodi mpaModi
  dsimp only
  by_cases c : a.getD (a.length - 1) 0 ≥ vi
  · rw [if_pos c, if_pos c]
    obtain ⟨qs, r', i1, i1', i2, i3, i4, i5⟩ := divmodiLoop_ok a ha vi hv a.length 0 [] (by omega)
    rw [List.append_nil] at i1
    rw [Nat.zero_mul, Nat.zero_add, List.take_length] at i4
    exact ⟨qs, r', i1, i1', i2, i3, i4, i5⟩
  · rw [if_neg c, if_neg c]
    obtain ⟨qs, r', i1, i1', i2, i3, i4, i5⟩ := divmodiLoop_ok a ha vi hv (a.length - 1) (a.getD (a.length - 1) 0) [0] (by omega)
    refine ⟨qs ++ [0], r', i1, i1', by simp [i2]; omega, i3.append (Limbs.cons (by decide) Limbs.nil), ?_, i5⟩
    rw [val_concat_zero, ← i4, take_pred hne, Nat.mul_comm, Nat.add_comm]

/-! ### The estimate of a quotient limb -/

theorem pair_gt {v1 v u1 u0 : Nat} (hv : v < W64) (hu : u0 < W64) : (v1 > u1 ∨ (v1 = u1 ∧ v > u0)) ↔ v1 * W64 + v > u1 * W64 + u0 := by
  constructor
  · rintro (h | ⟨h1, h2⟩)
    · have : (u1 + 1) * W64 ≤ v1 * W64 := Nat.mul_le_mul_right _ h
      rw [Nat.add_mul, Nat.one_mul] at this
      omega
    · rw [h1]; omega
  · intro h
    rcases Nat.lt_trichotomy v1 u1 with c | c | c
    · have : (v1 + 1) * W64 ≤ u1 * W64 := Nat.mul_le_mul_right _ c
      rw [Nat.add_mul, Nat.one_mul] at this
      omega
    · rw [c] at h; exact Or.inr ⟨c, by omega⟩
    · exact Or.inl c

theorem pair_sub {v1 v d : Nat} (hv1 : v1 < W64) (hv : v < W64) (hd : d < W64) (h : d ≤ v1 * W64 + v) :
    wsub v1 (b2n (v < d)) * W64 + wsub v d = v1 * W64 + v - d ∧ wsub v1 (b2n (v < d)) < W64 ∧ wsub v d < W64 := by
  unfold b2n
  simp only [decide_eq_true_eq]
  by_cases c : v < d
  · rw [if_pos c]
    have h1 : 1 ≤ v1 := by
      apply Classical.byContradiction
      intro n
      have : v1 = 0 := by omega
      rw [this] at h
      omega
    have e1 : wsub v1 1 = v1 - 1 := by unfold wsub; simp only [W64] at *; omega
    have e2 : wsub v d = v + W64 - d := by unfold wsub; simp only [W64] at *; omega
    rw [e1, e2]
    simp only [W64] at *
    omega
  · rw [if_neg c]
    have e1 : wsub v1 0 = v1 := by unfold wsub; simp only [W64] at *; omega
    have e2 : wsub v d = v - d := by unfold wsub; simp only [W64] at *; omega
    rw [e1, e2]
    exact ⟨by omega, hv1, by omega⟩

theorem fix_over {W p dh dl rem T u0 : Nat} (hge : W ≤ rem + dh) (hp : p ≤ W) (hdl : dl < W) (e : p * dh + (rem + dh) = T) :
    p * (dh * W + dl) ≤ T * W + u0 := by
  have h1 : W * W ≤ (rem + dh) * W := Nat.mul_le_mul_right _ hge
  have h2 : p * dl ≤ W * W := Nat.mul_le_mul hp (by omega)
  rw [← e, Nat.mul_add, Nat.add_mul, Nat.mul_assoc p dh]
  generalize p * (dh * W) = z1 at *
  generalize p * dl = z2 at *
  generalize (rem + dh) * W = z3 at *
  generalize W * W = z4 at *
  omega

/-- The correction loop ends with the quotient of the three leading limbs by the two leading limbs of the divisor. -/
theorem divFix_ok (dh dl T u0 : Nat) (hdh : dh < W64) (hdl : dl < W64) (hu : u0 < W64) (fuel : Nat) :
    ∀ q rem v1 v, q < fuel → q < W64 → rem < W64 → v1 < W64 → v < W64 → q * dh + rem = T → v1 * W64 + v = dl * q →
      T * W64 + u0 < (q + 1) * (dh * W64 + dl) →
      ∃ g, divFix dh dl u0 fuel q rem v1 v = some g ∧ g < W64 ∧ g * (dh * W64 + dl) ≤ T * W64 + u0 ∧
        T * W64 + u0 < (g + 1) * (dh * W64 + dl) := by
  induction fuel with
  | zero => intro q _ _ _ h; omega
  | succ fuel ih =>
    intro q rem v1 v hf hq hr hv1 hv hT hp hhi
    rw [divFix]
    have hcond : (v1 > rem ∨ (v1 = rem ∧ v > u0)) ↔ ¬ q * (dh * W64 + dl) ≤ T * W64 + u0 := by
      rw [pair_gt hv hu, hp, ← hT, Nat.mul_add, Nat.add_mul, Nat.mul_comm dl, Nat.mul_assoc q dh]
      generalize q * (dh * W64) = z1
      generalize q * dl = z2
      generalize rem * W64 = z3
      omega
    by_cases c : v1 > rem ∨ (v1 = rem ∧ v > u0)
    · rw [if_pos c]
      dsimp only
      have hn := hcond.1 c
      have hq1 : 1 ≤ q := by
        apply Classical.byContradiction
        intro n
        have : q = 0 := by omega
        rw [this, Nat.zero_mul] at hn
        omega
      have eq1 : wsub q 1 = q - 1 := by
        clear hn hcond hhi hT hp ih
        unfold wsub; simp only [W64] at *; omega
      rw [eq1]
      obtain ⟨p, rfl⟩ : ∃ p, q = p + 1 := ⟨q - 1, by omega⟩
      rw [Nat.add_sub_cancel]
      have hhi' : T * W64 + u0 < (p + 1) * (dh * W64 + dl) := by omega
      by_cases c2 : w64 (rem + dh) < dh
      · rw [if_pos c2]
        refine ⟨p, rfl, by omega, ?_, hhi'⟩
        have hge : W64 ≤ rem + dh := by
          clear hn hcond hhi hT hp ih hhi'
          unfold w64 at c2; simp only [W64] at *; omega
        have e : p * dh + (rem + dh) = T := by rw [← hT, Nat.add_mul, Nat.one_mul]; omega
        exact fix_over hge (by omega) hdl e
      · rw [if_neg c2]
        have hlt : rem + dh < W64 := by
          clear hn hcond hhi hT hp ih hhi'
          unfold w64 at c2; simp only [W64] at *; omega
        have hw : w64 (rem + dh) = rem + dh := Nat.mod_eq_of_lt hlt
        rw [hw]
        have hle : dl ≤ v1 * W64 + v := by
          rw [hp, Nat.mul_add, Nat.mul_one]
          omega
        obtain ⟨s1, s2, s3⟩ := pair_sub hv1 hv hdl hle
        exact ih p (rem + dh) _ _ (by omega) (by omega) hlt s2 s3 (by rw [← hT, Nat.add_mul, Nat.one_mul]; omega)
          (by rw [s1, hp, Nat.mul_add, Nat.mul_one]; omega) hhi'
    · rw [if_neg c]
      have : q * (dh * W64 + dl) ≤ T * W64 + u0 := Classical.byContradiction fun n => c (hcond.2 n)
      exact ⟨q, rfl, hq, this, hhi⟩

/-- The estimate, when the leading limb is below that of the divisor. -/
theorem divGuess_lt (dh dl top u1 u0 : Nat) (hdh : dh < W64) (hdl : dl < W64) (ht : top < dh) (h1 : u1 < W64) (h0 : u0 < W64) :
    ∃ g, divGuess dh dl top u1 u0 = some g ∧ g < W64 ∧ g * (dh * W64 + dl) ≤ (top * W64 + u1) * W64 + u0 ∧
      (top * W64 + u1) * W64 + u0 < (g + 1) * (dh * W64 + dl) := by
  obtain ⟨q, r, h, e, hq, e2, hr⟩ := udiv_one u1 top dh h1 hdh ht
  obtain ⟨m1, m2, m3⟩ := umul_correct dl q hdl hq
  rw [divGuess, if_neg (by omega), e, Option.bind_some]
  dsimp only
  refine divFix_ok dh dl (top * W64 + u1) u0 hdh hdl h0 W64 q r _ _ hq hq (by omega) m2 m3 e2.symm m1 ?_
  rw [e2]
  have k1 : (q + 1) * (dh * W64) ≤ (q + 1) * (dh * W64 + dl) := Nat.mul_le_mul_left _ (by omega)
  have k2 : (q * dh + r + 1) * W64 ≤ (q + 1) * (dh * W64) := by
    rw [← Nat.mul_assoc]
    exact Nat.mul_le_mul_right _ (by rw [Nat.add_mul, Nat.one_mul]; omega)
  rw [Nat.add_mul, Nat.one_mul] at k2
  omega

/-- The quotient of the leading limbs is the quotient or one more. -/
theorem guess_close {P D2 Dl U3 Ul g : Nat} (hP : 0 < P) (hDl : Dl < P) (hUl : Ul < P) (hD : g ≤ D2) (hlo : g * D2 ≤ U3) (hhi : U3 < (g + 1) * D2) :
    U3 * P + Ul < (g + 1) * (D2 * P + Dl) ∧ (g - 1) * (D2 * P + Dl) ≤ U3 * P + Ul := by
  constructor
  · have k1 : (U3 + 1) * P ≤ (g + 1) * D2 * P := Nat.mul_le_mul_right _ hhi
    have k2 : (g + 1) * (D2 * P) ≤ (g + 1) * (D2 * P + Dl) := Nat.mul_le_mul_left _ (by omega)
    rw [Nat.mul_assoc] at k1
    rw [Nat.add_mul, Nat.one_mul] at k1
    omega
  · rcases Nat.eq_zero_or_pos g with c | c
    · rw [c]; simp
    · obtain ⟨p, rfl⟩ : ∃ p, g = p + 1 := ⟨g - 1, by omega⟩
      rw [Nat.add_sub_cancel]
      have k1 : p * (D2 * P + Dl) ≤ p * (D2 * P + P) := Nat.mul_le_mul_left _ (by omega)
      have k2 : p * (D2 * P + P) = (p * D2 + p) * P := by rw [Nat.mul_add, Nat.add_mul, Nat.mul_assoc]
      have k3 : (p * D2 + p) * P ≤ U3 * P := Nat.mul_le_mul_right _ (by
        rw [Nat.add_mul, Nat.one_mul] at hlo
        omega)
      omega

/-- When the leading limbs agree, the greatest limb is the quotient or one more. -/
theorem guess_max {W P dh v1 u1 : Nat} (hn : W ≤ 2 * dh + 2) (hW : 2 ≤ W) (h1 : v1 < P) : (W - 1 - 1) * (dh * P + v1) ≤ dh * (P * W) + u1 := by
  have k1 : (W - 1 - 1) * (dh * P + v1) ≤ (W - 1 - 1) * ((dh + 1) * P) := Nat.mul_le_mul_left _ (by rw [Nat.add_mul, Nat.one_mul]; omega)
  have k2 : (W - 1 - 1) * (dh + 1) ≤ dh * W := by
    obtain ⟨k, rfl⟩ : ∃ k, W = k + 2 := ⟨W - 2, by omega⟩
    rw [show k + 2 - 1 - 1 = k by omega, Nat.mul_add, Nat.mul_add, Nat.mul_comm k]
    omega
  have k3 := Nat.mul_le_mul_right P k2
  rw [Nat.mul_assoc, Nat.mul_assoc, Nat.mul_comm W] at k3
  omega

/-- The last limb split off. -/
theorem mpaAdd_snoc (a : List Nat) : ∀ b c x y, a.length = b.length →
    mpaAdd (a ++ [x]) (b ++ [y]) c =
      ((mpaAdd a b c).1 ++ [w64 (x + y + (mpaAdd a b c).2)], b2n (w64 (x + y + (mpaAdd a b c).2) < x)) := by
  induction a with
  | nil =>
    intro b c x y h
    have : b = [] := List.length_eq_zero_iff.1 (by simpa using h.symm)
    subst this
    simp [mpaAdd.eq_def, addc]
  | cons z a ih =>
    intro b c x y h
    rcases b with _ | ⟨t, b⟩
    · simp at h
    · rw [List.cons_append, List.cons_append, mpaAdd.eq_def]
      dsimp only
      rw [ih b _ x y (by simpa using h)]
      rw [mpaAdd.eq_def (z :: a) (t :: b) c]
      rfl

theorem noMax_noLostC {a b : List Nat} (h : ∀ i, i < b.length → b.getD i 0 ≠ W64 - 1) (c : Nat) : NoLostC a b c :=
  fun i _ h2 h3 => absurd h3 (h i h2)

theorem split_top {l : List Nat} {n : Nat} (h : l.length = n + 1) : l = l.take n ++ [l.getD n 0] := by
  have : l.take (n + 1) = l.take n ++ [l[n]] := List.take_succ_eq_append_getElem (by omega)
  rw [List.take_of_length_le (l := l) (by omega)] at this
  rw [List.getD_eq_getElem?_getD, List.getElem?_eq_getElem (by omega)]
  exact this

theorem getD_take {l : List Nat} {n i : Nat} (h : i < n) : (l.take n).getD i 0 = l.getD i 0 := by
  rw [List.getD_eq_getElem?_getD, List.getD_eq_getElem?_getD, List.getElem?_take_of_lt h]

theorem digit_mod {x y c P A B V : Nat} (hx : x < W64) (hy : y < W64) (hc : c ≤ 1) (hV : V < P)
    (h : V + P * c = A + B) : ∃ k, V + P * w64 (x + y + c) + P * W64 * k = A + P * x + (B + P * y) ∧ V + P * w64 (x + y + c) < P * W64 := by
  have e : (x + y + c < W64 ∧ w64 (x + y + c) = x + y + c) ∨ (W64 ≤ x + y + c ∧ w64 (x + y + c) + W64 = x + y + c) := by
    unfold w64; simp only [W64] at *; omega
  have hlt : w64 (x + y + c) < W64 := Nat.mod_lt _ (by decide)
  have e3 : P * (x + y + c) = P * x + P * y + P * c := by rw [Nat.mul_add, Nat.mul_add]
  have hb : V + P * w64 (x + y + c) < P * W64 := by
    have : P * (w64 (x + y + c) + 1) ≤ P * W64 := Nat.mul_le_mul_left _ hlt
    rw [Nat.mul_add, Nat.mul_one] at this
    omega
  generalize w64 (x + y + c) = v at *
  rcases e with ⟨_, e2⟩ | ⟨_, e2⟩
  · refine ⟨0, ?_, hb⟩
    rw [e2, e3, Nat.mul_zero]
    omega
  · refine ⟨1, ?_, hb⟩
    rw [← e2, Nat.mul_add] at e3
    rw [Nat.mul_one]
    generalize P * W64 = z at *
    generalize P * v = z1 at *
    omega

/-- Adding the divisor back: exact up to the carry out of the top, which the caller ignores. -/
theorem add_back {a b : List Nat} (ha : Limbs a) (hb : Limbs b) (hl : a.length = b.length) (hn : 0 < b.length) (hm : NoMax b) :
    ∃ k, val (mpaAdd a b 0).1 + W64 ^ b.length * k = val a + val b ∧ (mpaAdd a b 0).1.length = b.length ∧ Limbs (mpaAdd a b 0).1 := by
  obtain ⟨n, hn'⟩ : ∃ n, b.length = n + 1 := ⟨b.length - 1, by omega⟩
  have ea := split_top (l := a) (n := n) (by omega)
  have eb := split_top (l := b) (n := n) hn'
  obtain ⟨i1, i2, i3, i4, i5⟩ := mpaAdd_ok (a.take n) (b.take n) 0 (by decide) (ha.take n) (hb.take n)
  have l1 : (a.take n).length = n := by simp; omega
  have l2 : (b.take n).length = n := by simp; omega
  rw [l1, l2, Nat.max_self] at i1 i4 i5
  have ex := i5.2 (noMax_noLostC (fun i hi => by
    rw [l2] at hi
    rw [getD_take hi]
    exact hm i (by omega)) 0)
  have ex' : val (mpaAdd (a.take n) (b.take n) 0).1 + W64 ^ n * (mpaAdd (a.take n) (b.take n) 0).2 = val (a.take n) + val (b.take n) := ex
  have hV := val_lt i2
  rw [i1] at hV
  obtain ⟨k, k1, k2⟩ := digit_mod (ha.getD n) (hb.getD n) i3 hV ex'
  have es : mpaAdd a b 0 = mpaAdd (a.take n ++ [a.getD n 0]) (b.take n ++ [b.getD n 0]) 0 := by rw [← ea, ← eb]
  rw [es, mpaAdd_snoc _ _ _ _ _ (by rw [l1, l2])]
  refine ⟨k, ?_, by rw [List.length_append, i1, hn']; rfl, i2.append (Limbs.cons (Nat.mod_lt _ (by decide)) Limbs.nil)⟩
  rw [val_snoc, i1, hn', Nat.pow_succ, k1]
  have va : val a = val (a.take n) + W64 ^ n * a.getD n 0 := by
    have := congrArg val ea
    rw [val_snoc, l1] at this
    exact this
  have vb : val b = val (b.take n) + W64 ^ n * b.getD n 0 := by
    have := congrArg val eb
    rw [val_snoc, l2] at this
    exact this
  rw [va, vb]

/-! ### Long division -/

theorem mod_unique {P v r k : Nat} (hv : v < P) (hr : r < P) (h : v + P * k = r + P) : v = r := by
  rcases k with _ | _ | k
  · omega
  · omega
  · rw [Nat.mul_add, Nat.mul_add] at h
    omega

theorem round_final {W P b U s w' qh top cy bq : Nat} (hb : b ≤ P) (hbp : 0 < b) (hs : s < P)
    (hU : U = w' + P * top) (hm : s + b * qh = w' + P * cy) (h1 : U < (qh + 1) * b) (h2 : (qh - 1) * b ≤ U) (hbq : bq = b * qh) (_ : W = W) :
    (top = cy ∧ U = qh * b + s ∧ s < b) ∨ (top ≠ cy ∧ 1 ≤ qh ∧ ∃ r, r < b ∧ U = (qh - 1) * b + r ∧ s + b = r + P) := by
  have e1 : s + qh * b + P * top = U + P * cy := by
    rw [Nat.mul_comm qh]; omega
  by_cases c : qh * b ≤ U
  · left
    obtain ⟨r, hr⟩ : ∃ r, U = qh * b + r := ⟨U - qh * b, by omega⟩
    have hrb : r < b := by rw [hr, Nat.add_mul, Nat.one_mul] at h1; omega
    rw [hr] at e1
    have e2 : s + P * top = r + P * cy := by
      generalize qh * b = z at *
      omega
    rcases Nat.lt_trichotomy top cy with d | d | d
    · have := cmp_digit (x := top) (y := cy) hs (show r < P by omega) d
      omega
    · subst d
      exact ⟨rfl, by rw [hr]; omega, by omega⟩
    · have := cmp_digit (x := cy) (y := top) (show r < P by omega) hs d
      omega
  · right
    have hq : 1 ≤ qh := by
      apply Classical.byContradiction
      intro n
      have : qh = 0 := by omega
      rw [this, Nat.zero_mul] at c
      omega
    obtain ⟨p, rfl⟩ : ∃ p, qh = p + 1 := ⟨qh - 1, by omega⟩
    rw [Nat.add_sub_cancel] at *
    obtain ⟨r, hr⟩ : ∃ r, U = p * b + r := ⟨U - p * b, by omega⟩
    rw [Nat.add_mul, Nat.one_mul] at c e1
    have hrb : r < b := by omega
    rw [hr] at e1
    have e2 : s + b + P * top = r + P * cy := by
      generalize p * b = z at *
      omega
    have hlt : top < cy := by
      apply Classical.byContradiction
      intro n
      have : P * cy ≤ P * top := Nat.mul_le_mul_left _ (by omega)
      omega
    have h3 : cy = top + 1 := by
      apply Classical.byContradiction
      intro n
      have : P * (top + 2) ≤ P * cy := Nat.mul_le_mul_left _ (by omega)
      rw [Nat.mul_add] at this
      omega
    refine ⟨by omega, hq, r, hrb, hr, ?_⟩
    rw [h3, Nat.mul_add, Nat.mul_one] at e2
    omega

theorem val_two {l : List Nat} {m : Nat} (h : l.length = m + 2) :
    val l = (l.getD (m + 1) 0 * W64 + l.getD m 0) * W64 ^ m + val (l.take m) := by
  have h1 := val_take_succ l (m + 1)
  have h2 := val_take_succ l m
  rw [show m + 1 + 1 = l.length by omega, List.take_length] at h1
  rw [h1, h2, Nat.add_mul, Nat.mul_assoc, Nat.mul_comm (W64 ^ m), Nat.mul_comm _ (l.getD (m + 1) 0), Nat.pow_succ, Nat.mul_comm W64]
  omega

theorem val_one {l : List Nat} {m : Nat} (h : l.length = m + 1) : val l = l.getD m 0 * W64 ^ m + val (l.take m) := by
  have h1 := val_take_succ l m
  rw [show m + 1 = l.length by omega, List.take_length] at h1
  rw [h1, Nat.mul_comm]; omega

theorem top_le {P dh t v w : Nat} (hv : v < P) (h : t * P + w < dh * P + v) : t ≤ dh := by
  apply Classical.byContradiction
  intro n
  have : (dh + 1) * P ≤ t * P := Nat.mul_le_mul_right _ (by omega)
  rw [Nat.add_mul, Nat.one_mul] at this
  omega

theorem guess_le {W dh dl g : Nat} (hg : g < W) (hd : 0 < dh) : g ≤ dh * W + dl := by
  have : 1 * W ≤ dh * W := Nat.mul_le_mul_right _ hd
  omega

theorem shift_lt {W x w b : Nat} (hx : x < W) (h : w < b) : x + W * w < W * b := by
  have : W * (w + 1) ≤ W * b := Nat.mul_le_mul_left _ h
  rw [Nat.mul_add, Nat.mul_one] at this
  omega

theorem w_pred : MAX + 1 = W64 := by decide

/-- One round of the long division is exact. -/
theorem divRound_ok {b w : List Nat} {x : Nat} (hb : Normal b) (hw : Limbs w) (hl : w.length = b.length) (hlt : val w < val b) (hx : x < W64) :
    ∃ q w', divRound b w x = some (q, w') ∧ q < W64 ∧ Limbs w' ∧ w'.length = b.length ∧ x + W64 * val w = q * val b + val w' ∧ val w' < val b := by
  obtain ⟨m, hm⟩ : ∃ m, b.length = m + 2 := ⟨b.length - 2, by have := hb.two; omega⟩
  have hwl : w.length = m + 2 := by omega
  have hhi : W64 ≤ 2 * b.getD (m + 1) 0 := by have := hb.high; rw [hm] at this; exact this
  have hdh := hb.words.getD (m + 1)
  have hdl := hb.words.getD m
  have hbl : val (b.take m) < W64 ^ m := by
    have := val_lt (hb.words.take m)
    rwa [List.length_take, Nat.min_eq_left (by omega)] at this
  have hbl1 : val (b.take (m + 1)) < W64 ^ (m + 1) := by
    have := val_lt (hb.words.take (m + 1))
    rwa [List.length_take, Nat.min_eq_left (by omega)] at this
  have hbl2 : val b < W64 ^ (m + 2) := by have := val_lt hb.words; rwa [hm] at this
  have vb := val_two hm
  have vb1 := val_one hm
  have vw1 := val_one hwl
  have htop : w.getD (m + 1) 0 ≤ b.getD (m + 1) 0 := by
    rw [vw1, vb1] at hlt
    exact top_le hbl1 hlt
  have hw'L : Limbs (x :: w.take (m + 1)) := Limbs.cons hx (hw.take _)
  have hw'l : (x :: w.take (m + 1)).length = m + 2 := by rw [List.length_cons, List.length_take]; omega
  have hw'v : x + W64 * val w = val (x :: w.take (m + 1)) + W64 ^ (m + 2) * w.getD (m + 1) 0 := by
    rw [val, vw1, Nat.mul_add, Nat.pow_succ _ (m + 1), Nat.mul_comm (W64 ^ (m + 1)) W64, Nat.mul_comm (w.getD (m + 1) 0), Nat.mul_assoc]
    omega
  have hUlt : x + W64 * val w < W64 * val b := shift_lt hx hlt
  have vw2 := val_two hw'l
  have hul : val ((x :: w.take (m + 1)).take m) < W64 ^ m := by
    have := val_lt (hw'L.take m)
    rwa [List.length_take, Nat.min_eq_left (by omega)] at this
  have hu1 := hw'L.getD (m + 1)
  have hu0 := hw'L.getD m
  unfold divRound
  dsimp only
  rw [hm, show m + 2 - 1 = m + 1 from rfl, show m + 2 - 2 = m from rfl]
  generalize hw' : x :: w.take (m + 1) = w' at *
  generalize htp : w.getD (m + 1) 0 = top at *
  generalize hd1 : b.getD (m + 1) 0 = dh at *
  generalize hd0 : b.getD m 0 = dl at *
  generalize he1 : w'.getD (m + 1) 0 = u1 at *
  generalize he0 : w'.getD m 0 = u0 at *
  generalize hU : x + W64 * val w = U at *
  have hdpos : 0 < dh := by clear hw'v hUlt vb vb1 vw1 vw2 hlt; simp only [W64] at hhi; omega
  -- the guess
  obtain ⟨g, hg, hgW, hg1, hg2⟩ : ∃ g, divGuess dh dl top u1 u0 = some g ∧ g < W64 ∧ U < (g + 1) * val b ∧ (g - 1) * val b ≤ U := by
    by_cases c : top = dh
    · refine ⟨MAX, by rw [divGuess, if_pos c], by decide, ?_, ?_⟩
      · rw [w_pred]; exact hUlt
      · have := guess_max (W := W64) (P := W64 ^ (m + 1)) (dh := dh) (v1 := val (b.take (m + 1))) (u1 := val w') (by omega) (by decide) hbl1
        rw [← vb1, ← Nat.pow_succ] at this
        rw [hw'v, c, Nat.mul_comm (W64 ^ (m + 2)), Nat.add_comm (val w')]
        exact this
    · obtain ⟨g, k1, k2, k3, k4⟩ := divGuess_lt dh dl top u1 u0 hdh hdl (by omega) hu1 hu0
      obtain ⟨r1, r2⟩ := guess_close (P := W64 ^ m) (Dl := val (b.take m)) (Ul := val (w'.take m)) (pow_pos m) hbl hul (guess_le k2 hdpos) k3 k4
      rw [← vb] at r1 r2
      have eU : ((top * W64 + u1) * W64 + u0) * W64 ^ m + val (w'.take m) = U := by
        rw [hw'v, vw2, Nat.pow_add, show W64 ^ 2 = W64 * W64 from rfl]
        clear hU hw'v hUlt vb vb1 vw1 vw2 r1 r2 k3 k4 hlt
        generalize W64 ^ m = P
        generalize W64 = W
        grind
      rw [eU] at r1 r2
      exact ⟨g, k1, k2, r1, r2⟩
  rw [hg, Option.map_some]
  obtain ⟨s1, s2, s3, s4⟩ := mpaMsui_ok g hgW b w' 0 (by decide) hb.words hw'L (by omega)
  rw [hm] at s1 s2
  have hsl := val_lt s3
  rw [s2] at hsl
  generalize mpaMsui w' b g 0 = r at *
  have hbpos : 0 < val b := Nat.lt_of_le_of_lt (Nat.zero_le _) hlt
  rcases round_final (W := W64) (P := W64 ^ (m + 2)) (by omega) hbpos hsl hw'v s1 hg1 hg2 rfl rfl with ⟨c, k1, k2⟩ | ⟨c, k0, r', k1, k2, k3⟩
  · rw [if_neg (by simp [c])]
    exact ⟨g, r.1, rfl, hgW, s3, s2, k1, k2⟩
  · rw [if_pos c]
    obtain ⟨k, a1, a2, a3⟩ := add_back s3 hb.words (by omega) (by omega) hb.nomax
    have hal := val_lt a3
    rw [a2, hm] at hal
    rw [hm] at a1 a2
    have hq : wsub g 1 = g - 1 := by
      clear hg1 hg2 hU hw'v hUlt vb vb1 vw1 vw2 hlt s1 a1
      unfold wsub; simp only [W64] at *; omega
    have hv : val (mpaAdd r.1 b 0).1 = r' := by
      rw [k3] at a1
      exact mod_unique hal (by omega) a1
    rw [hq]
    exact ⟨g - 1, _, rfl, by omega, a3, a2, by rw [hv]; exact k2, by omega⟩

theorem half_bound {W P dh v w : Nat} (h : W ≤ 2 * dh) (hw : w < P * W) (_ : v < P) : w < (dh * P + v) + (dh * P + v) := by
  have : W * P ≤ 2 * dh * P := Nat.mul_le_mul_right _ h
  rw [Nat.mul_assoc, Nat.mul_comm W] at this
  omega

/-- The first step leaves less than the divisor. -/
theorem divFirst_ok {b w : List Nat} (hb : Normal b) (hw : Limbs w) (hl : w.length = b.length) :
    ∃ f w', divFirst b w = some (f, w') ∧ Limbs w' ∧ w'.length = b.length ∧ val w = (if f then 1 else 0) * val b + val w' ∧ val w' < val b := by
  obtain ⟨m, hm⟩ : ∃ m, b.length = m + 1 := ⟨b.length - 1, by have := hb.two; omega⟩
  have hwl : w.length = m + 1 := by omega
  have hhi : W64 ≤ 2 * b.getD m 0 := by have := hb.high; rw [hm] at this; exact this
  have hbl : val (b.take m) < W64 ^ m := by
    have := val_lt (hb.words.take m)
    rwa [List.length_take, Nat.min_eq_left (by omega)] at this
  have hwtl : val (w.take m) < W64 ^ m := by
    have := val_lt (hw.take m)
    rwa [List.length_take, Nat.min_eq_left (by omega)] at this
  have vb := val_one hm
  have vw := val_one hwl
  have hwP : val w < W64 ^ m * W64 := by have := val_lt hw; rwa [hwl, Nat.pow_succ] at this
  have htwo : val w < val b + val b := by
    have := half_bound hhi hwP hbl
    rwa [← vb] at this
  have hcmp := mpaCmp_eq_of_length (hw.take m) (hb.words.take m) (by rw [List.length_take, List.length_take]; omega)
  unfold divFirst
  dsimp only
  rw [hm, show m + 1 - 1 = m from rfl, hcmp]
  -- the subtraction
  have hsub : val b ≤ val w → ∃ w', (if (mpaSub w b 0).2 ≠ 0 then (none : Option (Bool × List Nat)) else some (true, (mpaSub w b 0).1)) = some (true, w') ∧
      Limbs w' ∧ w'.length = b.length ∧ val w = val b + val w' ∧ val w' < val b := by
    intro hle
    obtain ⟨i1, i2, i3, i4, i5⟩ := mpaSub_ok w b 0 (by decide) hw hb.words (by omega)
    have hno : NoLostB w b 0 := by
      intro i h1 h2 h3 h4
      rw [Nat.add_zero] at h4
      rcases Nat.lt_or_ge (i + 1) b.length with c | c
      · exact hb.nomax i c h3
      · have : i = m := by omega
        subst this
        have hwm := hw.getD i
        have : w.getD i 0 * W64 ^ i ≤ b.getD i 0 * W64 ^ i := Nat.mul_le_mul_right _ (by omega)
        rw [vb, vw] at hle
        omega
    have e := i5.2 hno
    have hlt := val_lt i2
    rw [i1] at hlt
    have h0 : (mpaSub w b 0).2 = 0 := by
      apply Classical.byContradiction
      intro n
      have h1 : (mpaSub w b 0).2 = 1 := by omega
      rw [h1] at e
      omega
    rw [h0, Nat.mul_zero] at e
    rw [if_neg (by simp [h0])]
    exact ⟨_, rfl, i2, by omega, by omega, by omega⟩
  by_cases c1 : w.getD m 0 ≥ b.getD m 0
  · rw [if_pos c1]
    by_cases c2 : w.getD m 0 > b.getD m 0 ∨ compare (val (w.take m)) (val (b.take m)) ≠ .lt
    · rw [if_pos c2]
      have hle : val b ≤ val w := by
        rw [vb, vw]
        rcases c2 with c2 | c2
        · have := cmp_digit (x := b.getD m 0) (y := w.getD m 0) hbl hwtl c2
          rw [Nat.mul_comm, Nat.mul_comm _ (w.getD m 0)] at this
          omega
        · have : b.getD m 0 * W64 ^ m ≤ w.getD m 0 * W64 ^ m := Nat.mul_le_mul_right _ c1
          have : ¬ val (w.take m) < val (b.take m) := fun n => c2 (Nat.compare_eq_lt.2 n)
          omega
      obtain ⟨w', k1, k2, k3, k4, k5⟩ := hsub hle
      exact ⟨true, w', k1, k2, by omega, by simpa using k4, k5⟩
    · rw [if_neg c2]
      refine ⟨false, w, rfl, hw, by omega, by simp, ?_⟩
      have h1 : w.getD m 0 = b.getD m 0 := by omega
      have h2 : val (w.take m) < val (b.take m) := by
        apply Nat.compare_eq_lt.1
        apply Classical.byContradiction
        intro n
        exact c2 (Or.inr n)
      rw [vb, vw, h1]
      omega
  · rw [if_neg c1]
    refine ⟨false, w, rfl, hw, by omega, by simp, ?_⟩
    have := cmp_digit (x := w.getD m 0) (y := b.getD m 0) hwtl hbl (by omega)
    rw [vb, vw, Nat.mul_comm, Nat.mul_comm (b.getD m 0)]
    omega

theorem Limbs.reverse {l : List Nat} (h : Limbs l) : Limbs l.reverse := fun y hy => h y (List.mem_reverse.1 hy)

theorem divRounds_ok {b : List Nat} (hb : Normal b) (low : List Nat) : ∀ w q, Limbs low → Limbs w → w.length = b.length → val w < val b →
    ∃ qs w', divRounds b low w q = some (qs ++ q, w') ∧ qs.length = low.length ∧ Limbs qs ∧ Limbs w' ∧ w'.length = b.length ∧
      val low.reverse + W64 ^ low.length * val w = val qs * val b + val w' ∧ val w' < val b := by
  induction low with
  | nil => intro w q _ hw hl hlt; exact ⟨[], w, rfl, rfl, Limbs.nil, hw, hl, by simp [val], hlt⟩
  | cons x low ih =>
    intro w q hL hw hl hlt
    obtain ⟨q1, w1, e1, h1, h2, h3, h4, h5⟩ := divRound_ok hb hw hl hlt hL.head
    obtain ⟨qs, w', i1, i2, i3, i4, i5, i6, i7⟩ := ih w1 (q1 :: q) hL.tail h2 h3 h5
    refine ⟨qs ++ [q1], w', ?_, by simp [i2], i3.append (Limbs.cons h1 Limbs.nil), i4, i5, ?_, i7⟩
    · rw [divRounds, e1, Option.bind_some, i1]; simp
    · rw [List.reverse_cons, val_snoc, val_snoc, i2, List.length_reverse, List.length_cons, Nat.pow_succ]
      rw [Nat.add_comm x, Nat.mul_comm W64] at h4
      rw [Nat.add_comm, Nat.mul_comm (W64 ^ low.length) (val w1)] at i6
      have := long_step h4 i6
      rw [Nat.mul_comm _ (val w)]
      omega

/-- The long division is exact. -/
theorem mpaDivrem_ok {a b : List Nat} (ha : Limbs a) (hb : Normal b) (hl : b.length ≤ a.length) :
    ∃ f qs r, mpaDivrem a b = some (f, qs, r) ∧ qs.length = a.length - b.length ∧ Limbs qs ∧ Limbs r ∧ r.length = b.length ∧
      val a = (val (if f then qs ++ [1] else qs)) * val b + val r ∧ val r < val b := by
  obtain ⟨f, w, e1, h1, h2, h3, h4⟩ := divFirst_ok hb (ha.drop (a.length - b.length)) (by rw [List.length_drop]; omega)
  obtain ⟨qs, r, i1, i2, i3, i4, i5, i6, i7⟩ := divRounds_ok hb (a.take (a.length - b.length)).reverse w [] (ha.take _).reverse h1 h2 h4
  rw [List.reverse_reverse, List.length_reverse, List.length_take, Nat.min_eq_left (by omega)] at *
  refine ⟨f, qs, r, ?_, i2, i3, i4, i5, ?_, i7⟩
  · unfold mpaDivrem
    dsimp only
    rw [e1, Option.bind_some, i1, List.append_nil]; rfl
  · rw [val_take_drop a (a.length - b.length) (by omega), h3]
    have e : val (if f then qs ++ [1] else qs) = val qs + W64 ^ (a.length - b.length) * (if f then 1 else 0) := by
      rcases f with _ | _
      · simp
      · simp [val_snoc, i2]
    rw [e]
    generalize (if f = true then 1 else 0) = t at *
    rw [Nat.mul_add, Nat.add_mul, Nat.mul_assoc]
    omega

theorem val_lt_pow_of_zero {l : List Nat} (hl : Limbs l) (h : l.getLast? = some 0) : val l < W64 ^ (l.length - 1) := by
  rcases List.eq_nil_or_concat l with e | ⟨t, x, e⟩
  · rw [e] at h; cases h
  · rw [List.concat_eq_append] at e
    subst e
    simp only [List.getLast?_concat, Option.some.injEq] at h
    rw [h, val_concat_zero]
    have := val_lt (l := t) (fun y hy => hl y (List.mem_append_left _ hy))
    simpa using this

/-- Quotient and remainder of two numbers of which the divisor is suitable. -/
theorem divLong_ok {a b : List Nat} (ha : Limbs a) (na : a.getLast? ≠ some 0) (hb : Normal b) (hl : b.length ≤ a.length) :
    ∃ q r, divLong a b = some (q, r) ∧ (∃ x y z, mpaDivrem a b = some (x, y, z) ∧ strip z = r) ∧
      Limbs q ∧ q.getLast? ≠ some 0 ∧ q.length ≤ a.length - b.length + 1 ∧
      Limbs r ∧ r.getLast? ≠ some 0 ∧ r.length ≤ b.length ∧ val q = val a / val b ∧ val r = val a % val b := by
  obtain ⟨f, qs, r, e, h1, h2, h3, h4, h5, h6⟩ := mpaDivrem_ok ha hb hl
  have hL : Limbs (if f then qs ++ [1] else qs) := by
    rcases f with _ | _
    · simpa using h2
    · simpa using h2.append (Limbs.cons (by decide) Limbs.nil)
  have hn : (if f then qs ++ [1] else qs).getLast? ≠ some 0 := by
    rcases f with _ | _
    · intro c
      rw [if_neg (by decide)] at c h5
      have k1 := val_lt_pow_of_zero h2 c
      have hne : a ≠ [] := by intro n; have := hb.two; rw [n, List.length_nil] at hl; omega
      have k2 := val_ge na hne
      have hq : qs.length ≠ 0 := by
        intro n
        rw [List.length_eq_zero_iff.1 n] at c
        cases c
      have k3 := val_lt hb.words
      have k4 : (val qs + 1) * val b ≤ W64 ^ (qs.length - 1) * W64 ^ b.length := Nat.mul_le_mul k1 (by omega)
      rw [← Nat.pow_add, show qs.length - 1 + b.length = a.length - 1 by omega, Nat.add_mul, Nat.one_mul] at k4
      omega
    · simp
  have hs := strip_facts r
  refine ⟨_, strip r, ?_, ⟨f, qs, r, e, rfl⟩, hL, hn, ?_, hs.2.2.2 h3, hs.2.1, by omega, ?_, ?_⟩
  · unfold divLong
    rw [e, Option.bind_some]
    dsimp only
    rw [strip_id hn, if_neg (by simp)]
  · rcases f with _ | _
    · simp; omega
    · simp; omega
  · rw [h5, Nat.mul_comm, Nat.mul_add_div (by omega), Nat.div_eq_of_lt h6, Nat.add_zero]
  · rw [hs.1, h5, Nat.mul_comm, Nat.mul_add_mod, Nat.mod_eq_of_lt h6]

end Bfdev.Mpi

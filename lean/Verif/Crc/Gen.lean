import Verif.Crc.Table
set_option linter.unusedSimpArgs false
/-!
The table generator produces the tables.
-/
namespace Bfdev.Crc

/-- Effect of one byte on the reflected register. -/
def tLe {w : Nat} (poly : BitVec w) (d : Byte) : BitVec w := iter (shiftLe poly) 8 (d.setWidth w)
/-- Effect of one byte on the plain register. -/
def tBe {w : Nat} (poly : BitVec w) (d : Byte) : BitVec w := iter (shiftBe poly) 8 (d.setWidth w <<< (w - 8))

theorem linear_tLe {w : Nat} (poly : BitVec w) : Linear (tLe poly) := by
  intro x y
  unfold tLe
  rw [BitVec.setWidth_xor, (linear_shiftLe poly).iter]

theorem linear_tBe {w : Nat} (poly : BitVec w) : Linear (tBe poly) := by
  intro x y
  unfold tBe
  rw [BitVec.setWidth_xor, BitVec.shiftLeft_xor_distrib, (linear_shiftBe poly).iter]

/-- Disjoint bits add without carry. -/
theorem add_disjoint : ∀ k, k < 8 → ∀ i, i < 256 → (i % (2 * 2 ^ k) = 0 ∨ i < 2 ^ k) → 2 ^ k + i = 2 ^ k ^^^ i := by decide +kernel

theorem setIdx_get {α : Type} (t : List α) (i : Nat) (v : α) (h : i < t.length) :
    ∃ t', setIdx t i v = some t' ∧ t'.length = t.length ∧ ∀ j : Nat, t'[j]? = if j = i then some v else t[j]? := by
  refine ⟨t.set i v, setIdx_some v h, List.length_set, fun j => ?_⟩
  rw [List.getElem?_set]
  by_cases e : j = i
  · subst e; simp [h]
  · rw [if_neg (fun h => e h.symm), if_neg e]

theorem fillEntry_some {w : Nat} {T : Byte → BitVec w} (hT : Linear T) (t : List (BitVec w)) (count index : Nat) (k : Nat) (hk : k < 8)
    (hc : count = 2 ^ k) (hi : count + index < 256) (hd : index % (2 * 2 ^ k) = 0 ∨ index < 2 ^ k) (hl : 256 ≤ t.length)
    (hx : t[index]? = some (T (BitVec.ofNat 8 index))) :
    ∃ t', fillEntry (T (BitVec.ofNat 8 count)) count index t = some t' ∧ t'.length = t.length ∧
      ∀ j : Nat, t'[j]? = if j = count + index then some (T (BitVec.ofNat 8 j)) else t[j]? := by
  unfold fillEntry
  rw [hx, Option.bind_some, ← hT, ← ofNat_xor, hc, ← add_disjoint k hk index (by omega) hd, ← hc]
  obtain ⟨t', e1, e2, e3⟩ := setIdx_get t (count + index) (T (BitVec.ofNat 8 (count + index))) (by omega)
  refine ⟨t', e1, e2, fun j => ?_⟩
  rw [e3 j]
  by_cases e : j = count + index
  · subst e; rfl
  · rw [if_neg e, if_neg e]

theorem shiftLe_pow {w : Nat} (poly : BitVec w) : ∀ n m, n + m < w → iter (shiftLe poly) n (BitVec.ofNat w (2 ^ (n + m))) = BitVec.ofNat w (2 ^ m) := by
  intro n
  induction n with
  | zero => intro m _; rw [Nat.zero_add]; rfl
  | succ n ih =>
    intro m h
    rw [iter, show n + 1 + m = (n + m) + 1 by omega, Nat.pow_succ, Nat.mul_comm, shiftLe_double, ih _ (by omega)]
    rw [Nat.mul_comm, ← Nat.pow_succ]
    exact Nat.pow_lt_pow_right (by omega) (by omega)

theorem byte_wide {w : Nat} (hw : 8 ≤ w) (n : Nat) (hn : n < 256) : (BitVec.ofNat 8 n).setWidth w = BitVec.ofNat w n := by
  apply BitVec.eq_of_toNat_eq
  have h2 : (2 : Nat) ^ 8 ≤ 2 ^ w := Nat.pow_le_pow_right (by omega) hw
  simp only [BitVec.toNat_setWidth, BitVec.toNat_ofNat]
  rw [Nat.mod_eq_of_lt (b := 2 ^ 8) hn]

/-- The running value of the first loop is the effect of the byte `2^(7-k)`. -/
theorem crcLe_round {w : Nat} (hw : 8 ≤ w) (poly : BitVec w) (k : Nat) (hk : k < 8) :
    iter (shiftLe poly) (k + 1) 1 = tLe poly (BitVec.ofNat 8 (2 ^ (7 - k))) := by
  unfold tLe
  have h8 : (2 : Nat) ^ (7 - k) < 2 ^ 8 := Nat.pow_lt_pow_right (by omega) (by omega)
  rw [byte_wide hw _ (by omega)]
  have h1 := shiftLe_pow poly (7 - k) 0 (by omega)
  rw [Nat.add_zero, Nat.pow_zero] at h1
  have h2 := iter_add (shiftLe poly) (7 - k) (k + 1) (BitVec.ofNat w (2 ^ (7 - k)))
  rw [h1, show 7 - k + (k + 1) = 8 by omega] at h2
  exact h2.symm

theorem crcBe_round {w : Nat} (hw : 8 ≤ w) (poly : BitVec w) (k : Nat) (hk : k < 8) :
    iter (shiftBe poly) (k + 1) (1#w <<< (w - 1)) = tBe poly (BitVec.ofNat 8 (2 ^ k)) := by
  unfold tBe
  have h8 : (2 : Nat) ^ k < 2 ^ 8 := Nat.pow_lt_pow_right (by omega) (by omega)
  rw [byte_wide hw _ (by omega)]
  have h1 : ∀ n m, m < w → n ≤ m → iter (shiftBe poly) n (BitVec.ofNat w 1 <<< (m - n)) = BitVec.ofNat w 1 <<< m := by
    intro n
    induction n with
    | zero => intro m _ _; rfl
    | succ n ih =>
      intro m hm hn
      have := shiftBe_low poly 1 (w - 1 - (m - (n + 1))) (by omega) (Nat.one_lt_two_pow (by omega))
      rw [show w - 1 - (w - 1 - (m - (n + 1))) = m - (n + 1) by omega, show w - (w - 1 - (m - (n + 1))) = m - n by omega] at this
      rw [iter, this, ih _ hm (by omega)]
  have h2 : BitVec.ofNat w (2 ^ k) <<< (w - 8) = BitVec.ofNat w 1 <<< (w - 1 - (7 - k)) := by
    apply BitVec.eq_of_toNat_eq
    simp only [BitVec.toNat_shiftLeft, BitVec.toNat_ofNat, Nat.shiftLeft_eq, Nat.mod_mul_mod]
    rw [← Nat.pow_add, Nat.one_mul, show k + (w - 8) = w - 1 - (7 - k) by omega]
  have h3 := iter_add (shiftBe poly) (7 - k) (k + 1) (BitVec.ofNat w 1 <<< (w - 1 - (7 - k)))
  rw [h1 _ _ (by omega) (by omega), show 7 - k + (k + 1) = 8 by omega] at h3
  rw [h2]
  exact h3.symm

theorem round_le {w : Nat} (hw : 8 ≤ w) (poly : BitVec w) (size : Nat) (hs : 256 ≤ size) :
    ∃ s, forN 8 (roundLe poly) (1, List.replicate size 0) = some s ∧ s.2.length = size ∧
      ∀ i : Nat, i < 256 → s.2[i]? = some (tLe poly (BitVec.ofNat 8 i)) := by
  obtain ⟨s, e1, e2, e3, e4⟩ := forN_inv (P := fun k s => s.1 = iter (shiftLe poly) k 1 ∧ s.2.length = size ∧
      ∀ i : Nat, i < 256 → i % 2 ^ (8 - k) = 0 → s.2[i]? = some (tLe poly (BitVec.ofNat 8 i)))
    8 (roundLe poly) (1, List.replicate size 0)
    ⟨rfl, List.length_replicate, by
      intro i hi h
      have : i = 0 := by simp at h; omega
      subst this
      rw [List.getElem?_replicate, if_pos (by omega)]
      have := (linear_tLe poly).zero
      exact congrArg some this.symm⟩
    (by
      rintro k hk ⟨c, t⟩ ⟨f1, f2, f3⟩
      dsimp only at f1 f2 f3
      unfold roundLe
      dsimp only
      rw [f1, ← iter_succ' (shiftLe poly), crcLe_round hw poly k hk]
      have hc : 128 >>> k = 2 ^ (7 - k) := by
        have : k = 0 ∨ k = 1 ∨ k = 2 ∨ k = 3 ∨ k = 4 ∨ k = 5 ∨ k = 6 ∨ k = 7 := by omega
        rcases this with rfl | rfl | rfl | rfl | rfl | rfl | rfl | rfl <;> rfl
      rw [hc]
      have hcount : 2 * 2 ^ (7 - k) = 2 ^ (8 - k) := by rw [Nat.mul_comm, ← Nat.pow_succ]; congr 1; omega
      have hdiv : 256 / (2 * 2 ^ (7 - k)) * (2 * 2 ^ (7 - k)) = 256 := by
        rw [hcount, Nat.div_mul_cancel]
        exact Nat.pow_dvd_pow 2 (show 8 - k ≤ 8 by omega)
      generalize hcn : 2 ^ (7 - k) = c at *
      have hcp : 0 < c := by rw [← hcn]; exact Nat.two_pow_pos _
      obtain ⟨t', g1, g2, g3, g4⟩ := forN_inv (P := fun j t => t.length = size ∧ (∀ i : Nat, i < 256 → i % (2 * c) = 0 → t[i]? = some (tLe poly (BitVec.ofNat 8 i))) ∧
          ∀ j', j' < j → t[c + j' * (2 * c)]? = some (tLe poly (BitVec.ofNat 8 (c + j' * (2 * c)))))
        (256 / (2 * c)) (fun j => fillEntry (tLe poly (BitVec.ofNat 8 c)) c (j * (2 * c))) t
        ⟨f2, by rw [hcount]; exact f3, fun _ h => by omega⟩
        (by
          rintro j hj t ⟨h1, h2, h3⟩
          have hj1 : j * (2 * c) + 2 * c ≤ 256 := by
            rw [← hdiv, ← Nat.succ_mul]
            exact Nat.mul_le_mul_right _ hj
          obtain ⟨t', u1, u2, u3⟩ := fillEntry_some (linear_tLe poly) t c (j * (2 * c)) (7 - k) (by omega) hcn.symm (by omega)
            (Or.inl (by rw [hcn, Nat.mul_mod_left])) (by omega) (h2 _ (by omega) (Nat.mul_mod_left _ _))
          refine ⟨t', u1, by omega, ?_, ?_⟩
          · intro i hi hm
            rw [u3]
            split
            · rfl
            · exact h2 i hi hm
          · intro j' hj'
            rw [u3]
            split
            · rfl
            · rename_i hne
              refine h3 j' ?_
              rcases Nat.lt_or_ge j' j with h | h
              · exact h
              · exact absurd (by rw [show j' = j by omega]) hne)
      refine ⟨(_, t'), by rw [g1]; rfl, ?_, g2, ?_⟩
      · rw [← hcn, ← crcLe_round hw poly k hk]
      · intro i hi hm
        rw [show 8 - (k + 1) = 7 - k by omega, hcn] at hm
        by_cases h : i % (2 * c) = 0
        · exact g3 i hi h
        · have hm2 : i % (2 * c) = c := by
            have := Nat.mod_mod_of_dvd i (show c ∣ 2 * c from ⟨2, Nat.mul_comm _ _⟩)
            have h4 := Nat.mod_lt i (show 0 < 2 * c by omega)
            rw [hm] at this
            obtain ⟨q, hq⟩ := Nat.dvd_of_mod_eq_zero this
            rcases q with _ | _ | q
            · omega
            · omega
            · exfalso
              rw [hq, show c * (q + 1 + 1) = c * q + 2 * c by rw [Nat.mul_add, Nat.mul_add]; omega] at h4
              omega
          have hi2 : i = c + i / (2 * c) * (2 * c) := by
            have := Nat.div_add_mod i (2 * c)
            rw [Nat.mul_comm] at this
            omega
          rw [hi2]
          refine g4 _ ?_
          rw [← hdiv] at hi
          exact (Nat.div_lt_iff_lt_mul (by omega)).2 hi)
  exact ⟨s, e1, e3, fun i hi => e4 i hi (by simp [Nat.mod_one])⟩

theorem round_be {w : Nat} (hw : 8 ≤ w) (poly : BitVec w) (size : Nat) (hs : 256 ≤ size) :
    ∃ s, forN 8 (roundBe poly) (1#w <<< (w - 1), List.replicate size 0) = some s ∧ s.2.length = size ∧
      ∀ i : Nat, i < 256 → s.2[i]? = some (tBe poly (BitVec.ofNat 8 i)) := by
  obtain ⟨s, e1, e2, e3, e4⟩ := forN_inv (P := fun k s => s.1 = iter (shiftBe poly) k (1#w <<< (w - 1)) ∧ s.2.length = size ∧
      ∀ i : Nat, i < 2 ^ k → s.2[i]? = some (tBe poly (BitVec.ofNat 8 i)))
    8 (roundBe poly) (1#w <<< (w - 1), List.replicate size 0)
    ⟨rfl, List.length_replicate, by
      intro i hi
      have : i = 0 := by simp at hi; omega
      subst this
      rw [List.getElem?_replicate, if_pos (by omega)]
      have := (linear_tBe poly).zero
      exact congrArg some this.symm⟩
    (by
      rintro k hk ⟨c, t⟩ ⟨f1, f2, f3⟩
      dsimp only at f1 f2 f3
      unfold roundBe
      dsimp only
      rw [f1, ← iter_succ' (shiftBe poly), crcBe_round hw poly k hk]
      have hc : 1 <<< k = 2 ^ k := by rw [Nat.shiftLeft_eq, Nat.one_mul]
      rw [hc]
      have h8 : 2 * 2 ^ k ≤ 256 := by
        rw [Nat.mul_comm, ← Nat.pow_succ]
        exact Nat.pow_le_pow_right (n := 2) (by omega) (show k + 1 ≤ 8 by omega)
      have hp : 2 ^ (k + 1) = 2 * 2 ^ k := by rw [Nat.pow_succ, Nat.mul_comm]
      obtain ⟨t', g1, g2, g3⟩ := forN_inv (P := fun j t => t.length = size ∧ ∀ i : Nat, i < 2 ^ k + j → t[i]? = some (tBe poly (BitVec.ofNat 8 i)))
        (2 ^ k) (fillEntry (tBe poly (BitVec.ofNat 8 (2 ^ k))) (2 ^ k)) t ⟨f2, f3⟩
        (by
          rintro j hj t ⟨h1, h2⟩
          obtain ⟨t', u1, u2, u3⟩ := fillEntry_some (linear_tBe poly) t (2 ^ k) j k hk rfl (by omega) (Or.inr hj) (by omega) (h2 _ (by omega))
          refine ⟨t', u1, by omega, ?_⟩
          intro i hi
          rw [u3]
          split
          · rfl
          · exact h2 i (by omega))
      refine ⟨(_, t'), by rw [g1]; rfl, ?_, g2, ?_⟩
      · rw [← crcBe_round hw poly k hk]
      · intro i hi
        exact g3 i (by omega))
  exact ⟨s, e1, e3, fun i hi => e4 i hi⟩

/-- The second loops: each column is completed by repeated byte steps. -/
theorem fill_rows {w : Nat} (F : Byte → BitVec w) (S : BitVec w → BitVec w) (rowStep : Nat → Nat → BitVec w × List (BitVec w) → Option (BitVec w × List (BitVec w)))
    (hstep : ∀ count i c t, (∀ j : Nat, j < 256 → t[j]? = some (F (BitVec.ofNat 8 j))) →
      rowStep count i (c, t) = (setIdx t ((i + 1) * 256 + count) (S c)).map fun t => (S c, t))
    (rows : Nat) (hr : 0 < rows) (t : List (BitVec w)) (hl : t.length = 256 * rows) (ht : ∀ j : Nat, j < 256 → t[j]? = some (F (BitVec.ofNat 8 j))) :
    ∃ t', forN 256 (fun count t => t[count]?.bind fun crc => (forN (rows - 1) (rowStep count) (crc, t)).map (·.2)) t = some t' ∧
      ∀ r, r < rows → ∀ i : Nat, i < 256 → t'[r * 256 + i]? = some (iter S r (F (BitVec.ofNat 8 i))) := by
  obtain ⟨t', e1, e2, e3, e4⟩ := forN_inv (P := fun n t => t.length = 256 * rows ∧ (∀ j : Nat, j < 256 → t[j]? = some (F (BitVec.ofNat 8 j))) ∧
      ∀ r, r < rows → ∀ i : Nat, i < n → t[r * 256 + i]? = some (iter S r (F (BitVec.ofNat 8 i))))
    256 (fun count t => t[count]?.bind fun crc => (forN (rows - 1) (rowStep count) (crc, t)).map (·.2)) t ⟨hl, ht, fun _ _ _ h => by omega⟩
    (by
      rintro n hn t ⟨f1, f2, f3⟩
      obtain ⟨⟨c, t'⟩, g1, g2, g3, g4, g5, g6⟩ := forN_inv (P := fun k s => s.1 = iter S k (F (BitVec.ofNat 8 n)) ∧ s.2.length = 256 * rows ∧
          (∀ j : Nat, j < 256 → s.2[j]? = some (F (BitVec.ofNat 8 j))) ∧
          (∀ r, r < rows → ∀ i : Nat, i < n → s.2[r * 256 + i]? = some (iter S r (F (BitVec.ofNat 8 i)))) ∧
          ∀ r, r < k + 1 → s.2[r * 256 + n]? = some (iter S r (F (BitVec.ofNat 8 n))))
        (rows - 1) (rowStep n) (F (BitVec.ofNat 8 n), t)
        ⟨rfl, f1, f2, f3, fun r hr => by
          have : r = 0 := by omega
          subst this
          rw [Nat.zero_mul, Nat.zero_add]
          exact f2 n hn⟩
        (by
          rintro k hk ⟨c, t⟩ ⟨h1, h2, h3, h4, h5⟩
          dsimp only at h1 h2 h3 h4 h5
          rw [hstep _ _ _ _ h3, h1, ← iter_succ' S]
          obtain ⟨t', u1, u2, u3⟩ := setIdx_get t ((k + 1) * 256 + n) (iter S (k + 1) (F (BitVec.ofNat 8 n))) (by omega)
          refine ⟨(_, t'), by rw [u1]; rfl, rfl, by dsimp only; omega, ?_, ?_, ?_⟩
          · intro j hj
            dsimp only
            rw [u3, if_neg (by omega)]
            exact h3 j hj
          · intro r hr i hi
            dsimp only
            rw [u3, if_neg (by omega)]
            exact h4 r hr i hi
          · intro r hr
            dsimp only
            rw [u3]
            by_cases e : r = k + 1
            · subst e; rw [if_pos rfl]
            · rw [if_neg (by omega)]
              exact h5 r (by omega))
      refine ⟨t', ?_, g3, g4, ?_⟩
      · rw [f2 n hn, Option.bind_some, g1]
        rfl
      · intro r hr i hi
        by_cases e : i = n
        · subst e
          exact g6 r (by omega)
        · exact g5 r hr i (by omega))
  exact ⟨t', e1, e4⟩

theorem ushift_ushift {w : Nat} (c : BitVec w) : BitVec.ofNat w (c.toNat / 256 * 256) = (c >>> 8) <<< 8 := by
  apply BitVec.eq_of_toNat_eq
  simp only [BitVec.toNat_ofNat, BitVec.toNat_shiftLeft, BitVec.toNat_ushiftRight, Nat.shiftRight_eq_div_pow, Nat.shiftLeft_eq]

/-- Eight shifts of a register are the effect of its low byte and a shift by a byte. -/
theorem iter8_le {w : Nat} (hw : 8 ≤ w) (poly c : BitVec w) : iter (shiftLe poly) 8 c = stepT (tLe poly) c := by
  have h1 : ∀ n d, n ≤ w → 2 ^ n * d < 2 ^ w → iter (shiftLe poly) n (BitVec.ofNat w (2 ^ n * d)) = BitVec.ofNat w d := by
    intro n
    induction n with
    | zero => intro d _ _; simp [iter]
    | succ n ih =>
      intro d hn hd
      rw [Nat.pow_succ, Nat.mul_comm (2 ^ n), Nat.mul_assoc] at hd ⊢
      rw [iter, shiftLe_double _ _ hd, ih d (by omega) (by omega)]
  have h2 : c = (c.setWidth 8).setWidth w ^^^ BitVec.ofNat w (2 ^ 8 * (c >>> 8).toNat) := by
    apply BitVec.eq_of_getLsbD_eq
    intro i hi
    rw [BitVec.getLsbD_xor, BitVec.getLsbD_setWidth, BitVec.getLsbD_setWidth, BitVec.getLsbD_ofNat, Nat.testBit_two_pow_mul, BitVec.testBit_toNat,
      BitVec.getLsbD_ushiftRight]
    by_cases h : i < 8
    · have : ¬ 8 ≤ i := by omega
      simp [h, hi, this]
    · have h' : 8 ≤ i := by omega
      rw [show 8 + (i - 8) = i by omega]
      simp [h, hi, h']
  have h3 := Nat.div_mul_le_self c.toNat (2 ^ 8)
  have h4 := c.isLt
  conv => lhs; rw [h2, (linear_shiftLe poly).iter]
  rw [h1 8 _ hw (by rw [BitVec.toNat_ushiftRight, Nat.shiftRight_eq_div_pow, Nat.mul_comm]; omega)]
  unfold stepT tLe
  rw [BitVec.ofNat_toNat, BitVec.setWidth_eq]

/-- Eight shifts of the plain register. -/
theorem iter8_be {w : Nat} (hw : 8 ≤ w) (poly c : BitVec w) :
    iter (shiftBe poly) 8 c = tBe poly ((c >>> (w - 8)).setWidth 8) ^^^ (c <<< 8) := by
  have h1 : ∀ n, n ≤ w → ∀ x : BitVec w, x.toNat < 2 ^ (w - n) → iter (shiftBe poly) n x = x <<< n := by
    intro n
    induction n with
    | zero => intro _ x _; simp [iter]
    | succ n ih =>
      intro hn x hx
      have h2 : shiftBe poly x = x <<< 1 := by
        unfold shiftBe
        have : x.msb = false := by
          rw [BitVec.msb_eq_getLsbD_last, ← BitVec.testBit_toNat]
          exact Nat.testBit_lt_two_pow (Nat.lt_of_lt_of_le hx (Nat.pow_le_pow_right (by omega) (by omega)))
        rw [this]
        simp
      rw [iter, h2, ih (by omega), ← BitVec.shiftLeft_add, Nat.add_comm]
      rw [BitVec.toNat_shiftLeft, Nat.shiftLeft_eq]
      refine Nat.lt_of_le_of_lt (Nat.mod_le _ _) ?_
      rw [show w - n = w - (n + 1) + 1 by omega, Nat.pow_succ]
      omega
  have h2 : c = (((c >>> (w - 8)).setWidth 8).setWidth w <<< (w - 8)) ^^^ BitVec.ofNat w (c.toNat % 2 ^ (w - 8)) := by
    apply BitVec.eq_of_getLsbD_eq
    intro i hi
    rw [BitVec.getLsbD_xor, BitVec.getLsbD_shiftLeft, BitVec.getLsbD_setWidth, BitVec.getLsbD_setWidth, BitVec.getLsbD_ofNat, Nat.testBit_mod_two_pow,
      BitVec.testBit_toNat, BitVec.getLsbD_ushiftRight]
    by_cases h : i < w - 8
    · simp [h, hi]
    · have h3 : i - (w - 8) < 8 := by omega
      have h4 : i - (w - 8) < w := by omega
      rw [show w - 8 + (i - (w - 8)) = i by omega]
      simp [h, hi, h3, h4]
  have h5 : 2 ^ (w - 8) ≤ 2 ^ w := Nat.pow_le_pow_right (by omega) (by omega)
  have h6 : c.toNat % 2 ^ (w - 8) < 2 ^ (w - 8) := Nat.mod_lt _ (Nat.two_pow_pos _)
  conv => lhs; rw [h2, (linear_shiftBe poly).iter]
  rw [h1 8 hw (BitVec.ofNat w (c.toNat % 2 ^ (w - 8))) (by rw [BitVec.toNat_ofNat]; exact Nat.lt_of_le_of_lt (Nat.mod_le _ _) h6)]
  unfold tBe
  congr 1
  apply BitVec.eq_of_getLsbD_eq
  intro i hi
  rw [BitVec.getLsbD_shiftLeft, BitVec.getLsbD_shiftLeft, BitVec.getLsbD_ofNat, Nat.testBit_mod_two_pow, BitVec.testBit_toNat]
  by_cases h : i < 8
  · simp [h]
  · have h3 : i - 8 < w - 8 := by omega
    have h4 : i - 8 < w := by omega
    simp [h, hi, h3, h4]

/-- The reflected generator, for every polynomial, width and number of rows. -/
theorem genLe_ok {w : Nat} (hw : 8 ≤ w) (poly : BitVec w) (rows : Nat) (hr : 0 < rows) : ∃ t, genLe poly rows = some t ∧ TableOk (tLe poly) rows t := by
  obtain ⟨⟨c, t⟩, e1, e2, e3⟩ := round_le hw poly (256 * rows) (by omega)
  dsimp only at e2 e3
  obtain ⟨t', f1, f2⟩ := fill_rows (tLe poly) (stepT (tLe poly)) rowLe (by
    intro count i c t h
    unfold rowLe
    dsimp only
    rw [low_byte hw, h _ (BitVec.isLt _), Option.bind_some, BitVec.ofNat_toNat, BitVec.setWidth_eq]
    rfl) rows hr t e2 e3
  exact ⟨t', by unfold genLe; rw [e1, Option.bind_some, f1], f2⟩

/-- The plain generator. -/
theorem genBe_ok {w : Nat} (hw : 8 ≤ w) (poly : BitVec w) (rows : Nat) (hr : 0 < rows) : ∃ t, genBe poly rows = some t ∧
    ∀ r, r < rows → ∀ i : Nat, i < 256 → t[r * 256 + i]? = some (iter (iter (shiftBe poly) 8) r (tBe poly (BitVec.ofNat 8 i))) := by
  obtain ⟨⟨c, t⟩, e1, e2, e3⟩ := round_be hw poly (256 * rows) (by omega)
  dsimp only at e2 e3
  obtain ⟨t', f1, f2⟩ := fill_rows (tBe poly) (iter (shiftBe poly) 8) rowBe (by
    intro count i c t h
    unfold rowBe
    dsimp only
    rw [low_byte hw, h _ (BitVec.isLt _), Option.bind_some, BitVec.ofNat_toNat, BitVec.setWidth_eq, iter8_be hw]) rows hr t e2 e3
  exact ⟨t', by unfold genBe; rw [e1, Option.bind_some, f1], f2⟩

end Bfdev.Crc

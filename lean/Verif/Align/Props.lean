import Verif.Align.Spec
import Verif.Rounding.Props
/-! Property C113. -/
namespace Bfdev.Align

theorem Ty.Std.promote {t : Ty} (h : t.Std) : t.promote.bits = 32 ∨ t.promote.bits = 64 := by
  unfold Ty.promote
  split
  · exact Or.inl rfl
  · rcases h with h | h | h | h <;> omega

theorem promote_holds {t : Ty} (h : t.Std) {v : Int} (hv : t.Holds v) : t.promote.Holds v := by
  unfold Ty.promote
  split
  · next hb =>
    unfold Ty.Holds at hv ⊢
    obtain ⟨s, w⟩ := t
    dsimp only at hv hb ⊢
    rcases h with h | h | h | h <;> dsimp only at h <;> subst h <;> first | omega | (cases s <;> simp at hv ⊢ <;> omega)
  · exact hv

theorem result_std {tv ta : Ty} (h1 : tv.Std) (h2 : ta.Std) : (result tv ta).bits = 32 ∨ (result tv ta).bits = 64 := by
  have a := h1.promote
  have b := h2.promote
  unfold result Ty.common
  split
  · exact b
  · split <;> exact a

theorem ofInt_toNat (w : Nat) (v : Int) : ((BitVec.ofInt w v).toNat : Int) = v % 2 ^ w := by
  rw [BitVec.toNat_ofInt]
  have : (0 : Int) < 2 ^ w := Int.pow_pos (by decide)
  have := Int.emod_nonneg v (b := ((2 ^ w : Nat) : Int)) (by push_cast; omega)
  rw [Int.toNat_of_nonneg this]
  push_cast
  rfl

theorem ofInt_congr {w : Nat} {x y : Int} (h : x % 2 ^ w = y % 2 ^ w) : BitVec.ofInt w x = BitVec.ofInt w y := by
  apply BitVec.eq_of_toNat_eq
  have a := ofInt_toNat w x
  have b := ofInt_toNat w y
  omega

theorem toInt_emod {w : Nat} (b : BitVec w) : b.toInt % 2 ^ w = b.toNat % 2 ^ w := by
  rw [BitVec.toInt_eq_toNat_bmod]
  have := Int.bmod_emod (x := (b.toNat : Int)) (m := 2 ^ w)
  push_cast at this
  exact this

theorem ofInt_conv (t : Ty) (v : Int) : BitVec.ofInt t.bits (t.conv v) = BitVec.ofInt t.bits v := by
  unfold Ty.conv Ty.read
  split
  · exact BitVec.ofInt_toInt
  · rw [BitVec.ofInt_natCast, BitVec.ofNat_toNat, BitVec.setWidth_eq]

/-- Converting a value to a type that holds it does nothing. -/
theorem conv_id {t : Ty} (ht : 0 < t.bits) {v : Int} (h : t.Holds v) : t.conv v = v := by
  unfold Ty.Holds at h
  unfold Ty.conv Ty.read
  split
  · next hs =>
    rw [if_pos hs] at h
    exact BitVec.toInt_ofInt_eq_self ht h.1 h.2
  · next hs =>
    rw [if_neg hs] at h
    rw [ofInt_toNat, Int.emod_eq_of_lt h.1 h.2]

theorem conv_holds (t : Ty) (ht : 0 < t.bits) (v : Int) : t.Holds (t.conv v) := by
  unfold Ty.Holds Ty.conv Ty.read
  split
  · next hs =>
    have a := BitVec.le_toInt (BitVec.ofInt t.bits v)
    have b := BitVec.toInt_lt (x := BitVec.ofInt t.bits v)
    exact ⟨a, b⟩
  · next hs =>
    have := (BitVec.ofInt t.bits v).isLt
    refine ⟨by omega, ?_⟩
    have : (((BitVec.ofInt t.bits v).toNat : Nat) : Int) < ((2 ^ t.bits : Nat) : Int) := by exact_mod_cast this
    push_cast at this
    exact this

theorem neg_pow_bits {w k : Nat} (hk : k < w) :
    BitVec.ofInt w (-2 ^ k) = ~~~ Rounding.roundMask w (BitVec.ofNat (k + 1) (2 ^ k)) := by
  apply BitVec.eq_of_toNat_eq
  have hy : (BitVec.ofNat (k + 1) (2 ^ k)).toNat = 2 ^ k := by
    rw [BitVec.toNat_ofNat, Nat.mod_eq_of_lt (Nat.pow_lt_pow_right (by decide) (by omega))]
  have h1 : 2 ^ k < 2 ^ w := Nat.pow_lt_pow_right (by decide) hk
  have h0 : 0 < 2 ^ k := Nat.two_pow_pos k
  rw [BitVec.toNat_not, Rounding.mask_toNat hy, Nat.mod_eq_of_lt (by omega), BitVec.toNat_ofInt]
  have e : (-2 ^ k : Int) % ((2 ^ w : Nat) : Int) = ((2 ^ w - 2 ^ k : Nat) : Int) := by
    have hc : ((2 ^ w - 2 ^ k : Nat) : Int) = -2 ^ k + ((2 ^ w : Nat) : Int) := by
      rw [Int.ofNat_sub (Nat.le_of_lt h1)]
      push_cast
      omega
    rw [hc, ← Int.add_emod_right, ← hc]
    exact Int.emod_eq_of_lt (by omega) (by omega)
  rw [e]
  simp
  omega

/-- Clearing the low bits, as natural numbers. -/
theorem mask_low {w k : Nat} (hk : k < w) (x : Int) : ((BitVec.ofInt w x &&& BitVec.ofInt w (-2 ^ k)).toNat : Int) = x % 2 ^ w - x % 2 ^ k := by
  rw [neg_pow_bits hk]
  have hy : (BitVec.ofNat (k + 1) (2 ^ k)).toNat = 2 ^ k := by
    rw [BitVec.toNat_ofNat, Nat.mod_eq_of_lt (Nat.pow_lt_pow_right (by decide) (by omega))]
  obtain ⟨⟨c, hc⟩, h2, h3⟩ := Rounding.round_down_correct (BitVec.ofInt w x) (BitVec.ofNat (k + 1) (2 ^ k)) hy
  unfold Rounding.roundDown at hc h2 h3
  generalize (BitVec.ofInt w x &&& ~~~ Rounding.roundMask w (BitVec.ofNat (k + 1) (2 ^ k))).toNat = r at hc h2 h3 ⊢
  have hx := ofInt_toNat w x
  generalize (BitVec.ofInt w x).toNat = X at h2 h3 hx
  have h0 : 0 < 2 ^ k := Nat.two_pow_pos k
  have h4 := h3 (2 ^ k * (X / 2 ^ k)) ⟨_, rfl⟩ (Nat.mul_div_le X _)
  have h5 : c ≤ X / 2 ^ k := (Nat.le_div_iff_mul_le h0).2 (by rw [Nat.mul_comm]; omega)
  have h6 : 2 ^ k * c ≤ 2 ^ k * (X / 2 ^ k) := Nat.mul_le_mul_left _ h5
  have h7 := Nat.mod_add_div X (2 ^ k)
  have h8 : (x % 2 ^ w) % 2 ^ k = x % 2 ^ k := Int.emod_emod_of_dvd x (by
    refine ⟨2 ^ (w - k), ?_⟩
    rw [← Int.pow_add]
    congr 1
    omega)
  rw [← h8, ← hx]
  have h9 : ((X : Int) % 2 ^ k) = ((X % 2 ^ k : Nat) : Int) := by push_cast; rfl
  rw [h9]
  omega

/-- Clearing the low bits of a value of a type. -/
theorem band_low {t : Ty} {k : Nat} (hk : k < t.bits) {x : Int} (hx : t.Holds x) :
    t.read (BitVec.ofInt t.bits x &&& BitVec.ofInt t.bits (-2 ^ k)) = x - x % 2 ^ k := by
  have key := mask_low hk x
  obtain ⟨s, w⟩ := t
  unfold Ty.Holds at hx
  unfold Ty.read
  dsimp only at *
  cases s with
  | false =>
    rw [if_neg (by decide)] at hx ⊢
    rw [key, Int.emod_eq_of_lt hx.1 hx.2]
  | true =>
    rw [if_pos rfl] at hx ⊢
    rw [BitVec.toInt_eq_toNat_cond]
    generalize (BitVec.ofInt w x &&& BitVec.ofInt w (-2 ^ k)).toNat = r at key ⊢
    have hw : (2 : Int) ^ w = 2 * 2 ^ (w - 1) := by
      rw [← Int.pow_succ']
      congr 1
      omega
    have hwn : 2 ^ w = 2 * 2 ^ (w - 1) := by rw [← Nat.pow_succ']; congr 1; omega
    obtain ⟨m, hm⟩ : ∃ m : Int, (2 : Int) ^ (w - 1) = 2 ^ k * m := by
      refine ⟨2 ^ (w - 1 - k), ?_⟩
      rw [← Int.pow_add]
      congr 1
      omega
    have ha : (0 : Int) < 2 ^ k := Int.pow_pos (by decide)
    have hr0 := Int.emod_nonneg x (b := 2 ^ k) (by omega)
    have hdm := Int.mul_ediv_add_emod x (2 ^ k)
    have hlow : -(2 : Int) ^ (w - 1) ≤ x - x % 2 ^ k := by
      have : -m ≤ x / 2 ^ k := (Int.le_ediv_iff_mul_le ha).2 (by rw [Int.neg_mul, Int.mul_comm, ← hm]; exact hx.1)
      have := Int.mul_le_mul_of_nonneg_left this (Int.le_of_lt ha)
      rw [Int.mul_neg, ← hm] at this
      omega
    have hHc : ((2 ^ (w - 1) : Nat) : Int) = 2 ^ (w - 1) := by push_cast; rfl
    rw [hw] at key
    rw [hwn]
    generalize (2 : Int) ^ (w - 1) = H at *
    generalize 2 ^ (w - 1) = HN at *
    by_cases h0 : 0 ≤ x
    · rw [Int.emod_eq_of_lt h0 (by omega)] at key
      rw [if_pos (by omega), key]
    · have : x % (2 * H) = x + 2 * H := by
        rw [← Int.add_emod_right]
        exact Int.emod_eq_of_lt (by omega) (by omega)
      rw [this] at key
      rw [if_neg (by omega), key]
      omega

theorem below_mod (v : Int) (k : Nat) : Below v (2 ^ k) (v - v % 2 ^ k) := by
  have ha : (0 : Int) < 2 ^ k := Int.pow_pos (by decide)
  have hr0 := Int.emod_nonneg v (b := 2 ^ k) (by omega)
  have hdm := Int.mul_ediv_add_emod v (2 ^ k)
  refine ⟨⟨v / 2 ^ k, by omega⟩, by omega, ?_⟩
  rintro _ ⟨c, rfl⟩ hc
  have : c ≤ v / 2 ^ k := (Int.le_ediv_iff_mul_le ha).2 (by rw [Int.mul_comm]; exact hc)
  have := Int.mul_le_mul_of_nonneg_left this (Int.le_of_lt ha)
  omega

theorem Below.unique {v a r r' : Int} (h : Below v a r) (h' : Below v a r') : r = r' :=
  Int.le_antisymm (h'.2.2 r h.1 h.2.1) (h.2.2 r' h'.1 h'.2.1)

theorem pow_lt {a b : Nat} (h : a < b) : (2 : Int) ^ a < 2 ^ b := by
  have : ((2 ^ a : Nat) : Int) < ((2 ^ b : Nat) : Int) := by exact_mod_cast Nat.pow_lt_pow_right (by decide) h
  push_cast at this
  exact this

theorem lt_of_pow {k w : Nat} (h : (2 : Int) ^ k < 2 ^ w) : k < w := by
  have : 2 ^ k < 2 ^ w := by
    have h' : ((2 ^ k : Nat) : Int) < ((2 ^ w : Nat) : Int) := by push_cast; exact h
    exact_mod_cast h'
  exact (Nat.pow_lt_pow_iff_right (by decide)).1 this

theorem holds_pow {t : Ty} {k : Nat} (h : t.Holds (2 ^ k)) : k < t.bits ∧ (t.signed = true → k < t.bits - 1) := by
  unfold Ty.Holds at h
  split at h
  · next hs =>
    have := lt_of_pow h.2
    exact ⟨by omega, fun _ => this⟩
  · next hs => exact ⟨lt_of_pow h.2, fun e => absurd e hs⟩

theorem not_ofInt (w : Nat) (x : Int) : ~~~ BitVec.ofInt w x = BitVec.ofInt w (-x - 1) := by
  apply BitVec.eq_of_toNat_eq
  have a := ofInt_toNat w x
  have b := ofInt_toNat w (-x - 1)
  have hN : (0 : Int) < 2 ^ w := Int.pow_pos (by decide)
  have hlt := (BitVec.ofInt w x).isLt
  have hNN : ((2 ^ w : Nat) : Int) = 2 ^ w := by push_cast; rfl
  rw [BitVec.toNat_not]
  have e : (-x - 1) % 2 ^ w = 2 ^ w - 1 - x % 2 ^ w := by
    have hd := Int.mul_ediv_add_emod x (2 ^ w)
    have h1 := Int.emod_nonneg x (b := 2 ^ w) (by omega)
    have h2 := Int.emod_lt_of_pos x hN
    have : -x - 1 = (2 ^ w - 1 - x % 2 ^ w) + 2 ^ w * (-(x / 2 ^ w) - 1) := by
      rw [Int.mul_sub, Int.mul_neg]
      omega
    rw [this, Int.add_mul_emod_self_left]
    exact Int.emod_eq_of_lt (by omega) (by omega)
  rw [e, ← a] at b
  omega

/-- The mask and its complement in the type of the alignment. -/
theorem mask_val {ta : Ty} (ha : ta.Std) {k : Nat} (hk : ta.Holds (2 ^ k)) :
    ta.promote.arith (2 ^ k - 1) = some (2 ^ k - 1) ∧ ta.promote.bnot (2 ^ k - 1) = ta.promote.conv (-2 ^ k) ∧ ta.promote.Holds (2 ^ k) := by
  have hp := promote_holds ha hk
  have hb := ha.promote
  have h0 : (0 : Int) < 2 ^ k := Int.pow_pos (by decide)
  have hm : ta.promote.Holds (2 ^ k - 1) := by
    unfold Ty.Holds at hp ⊢
    have : (0 : Int) < 2 ^ (ta.promote.bits - 1) := Int.pow_pos (by decide)
    split
    · next hs => rw [if_pos hs] at hp; omega
    · next hs => rw [if_neg hs] at hp; omega
  refine ⟨?_, ?_, hp⟩
  · unfold Ty.arith
    split
    · rfl
    · rw [conv_id (by omega) hm]
  · unfold Ty.bnot Ty.conv
    rw [not_ofInt]
    congr 2
    omega

theorem result_ge {tv ta : Ty} : tv.promote.bits ≤ (result tv ta).bits ∧ ta.promote.bits ≤ (result tv ta).bits := by
  unfold result Ty.common
  split
  · omega
  · split <;> first | omega | (dsimp only; omega)

theorem result_narrow {tv ta : Ty} (h : Narrow tv ta) : result tv ta = tv.promote := by
  unfold result Ty.common
  rw [if_neg (by have := h.2; omega), if_pos h.2]

/-- The value keeps its meaning in the common type, unless it is negative and that type is unsigned. -/
theorem value_kept {tv ta : Ty} (h : tv.Std) {v : Int} (hv : tv.Holds v) (h0 : 0 ≤ v ∨ (result tv ta).signed = true) : (result tv ta).Holds v := by
  have hp := promote_holds h hv
  have hpos : 0 < tv.promote.bits := by have := h.promote; omega
  unfold result Ty.common at *
  generalize tv.promote = p at *
  generalize ta.promote = q at *
  have mono : ∀ {a b : Nat}, a ≤ b → (2 : Int) ^ a ≤ 2 ^ b := by
    intro a b hab
    have : ((2 ^ a : Nat) : Int) ≤ ((2 ^ b : Nat) : Int) := by exact_mod_cast Nat.pow_le_pow_right (by decide) hab
    push_cast at this
    exact this
  unfold Ty.Holds at *
  split at h0
  · next hlt =>
    rw [if_pos hlt]
    have m1 := mono (show p.bits ≤ q.bits - 1 by omega)
    have m2 := mono (show p.bits - 1 ≤ q.bits - 1 by omega)
    have m3 := mono (show p.bits - 1 ≤ q.bits by omega)
    have m4 := mono (show p.bits ≤ q.bits by omega)
    split at hp <;> split <;> simp_all <;> omega
  · next hlt =>
    rw [if_neg hlt]
    split at h0
    · next hlt2 => rw [if_pos hlt2]; exact hp
    · next hlt2 =>
      rw [if_neg hlt2]
      dsimp only at h0 ⊢
      have m1 := mono (show p.bits - 1 ≤ p.bits by omega)
      generalize (2 : Int) ^ (p.bits - 1) = H at *
      generalize (2 : Int) ^ p.bits = N at *
      cases hs : p.signed <;> cases hs' : q.signed <;> simp only [hs, hs', Bool.and_false, Bool.false_and, Bool.and_true, Bool.true_and, if_true, if_false, Bool.false_eq_true, or_false] at hp h0 ⊢ <;> omega

/-- The mask in the common type, if the alignment is not narrow. -/
theorem mask_wide {tv ta : Ty} (ha : ta.Std) {k : Nat} (hk : ta.Holds (2 ^ k)) (hn : ¬ Narrow tv ta) :
    BitVec.ofInt (result tv ta).bits ((result tv ta).conv (ta.promote.bnot (2 ^ k - 1))) = BitVec.ofInt (result tv ta).bits (-2 ^ k) := by
  obtain ⟨-, m2, m3⟩ := mask_val ha hk
  rw [ofInt_conv, m2]
  have hb := ha.promote
  cases hs : ta.promote.signed with
  | true =>
    rw [conv_id (by omega)]
    unfold Ty.Holds at m3 ⊢
    rw [if_pos hs] at m3 ⊢
    have h0 : (0 : Int) < 2 ^ k := Int.pow_pos (by decide)
    omega
  | false =>
    have hge : ¬ ta.promote.bits < tv.promote.bits := fun h => hn ⟨hs, h⟩
    have hb : (result tv ta).bits = ta.promote.bits := by
      unfold result Ty.common
      split
      · rfl
      · dsimp only
        omega
    rw [hb, ofInt_conv]

/-- The mask in the common type, if the alignment is narrow. -/
theorem mask_narrow {tv ta : Ty} (hv : tv.Std) (ha : ta.Std) {k : Nat} (hk : ta.Holds (2 ^ k)) (hn : Narrow tv ta) (x : Int) (hx : (result tv ta).Holds x) :
    (result tv ta).band x ((result tv ta).conv (ta.promote.bnot (2 ^ k - 1))) = x % 2 ^ 32 - x % 2 ^ k ∧ ta.promote.bits = 32 ∧ k < 32 := by
  obtain ⟨-, m2, m3⟩ := mask_val ha hk
  have hb : ta.promote.bits = 32 := by
    have := hv.promote
    have := ha.promote
    have := hn.2
    omega
  have hc : (result tv ta).bits = 64 := by
    rw [result_narrow hn]
    have := hv.promote
    have := hn.2
    omega
  have hk32 : k < 32 := by have := (holds_pow m3).1; omega
  have hP : ta.promote = ⟨false, 32⟩ := by
    have := hn.1
    cases h : ta.promote
    rw [h] at this hb
    simp_all
  refine ⟨?_, hb, hk32⟩
  rw [m2]
  generalize result tv ta = c at *
  obtain ⟨sg, w⟩ := c
  dsimp only at hc
  subst hc
  unfold Ty.band
  rw [ofInt_conv, hP]
  have e : BitVec.ofInt 64 x &&& BitVec.ofInt 64 (Ty.conv ⟨false, 32⟩ (-2 ^ k)) = (BitVec.ofInt 32 x &&& BitVec.ofInt 32 (-2 ^ k)).setWidth 64 := by
    have e1 : BitVec.ofInt 64 (Ty.conv ⟨false, 32⟩ (-2 ^ k)) = (BitVec.ofInt 32 (-2 ^ k)).setWidth 64 := by
      show BitVec.ofInt 64 (((BitVec.ofInt 32 (-2 ^ k)).toNat : Nat) : Int) = _
      rw [BitVec.ofInt_natCast, BitVec.ofNat_toNat]
    have e2 : BitVec.ofInt 32 x = (BitVec.ofInt 64 x).setWidth 32 := by
      apply BitVec.eq_of_toNat_eq
      have a1 := ofInt_toNat 32 x
      have a2 := ofInt_toNat 64 x
      rw [BitVec.toNat_setWidth]
      omega
    rw [e1, e2]
    generalize BitVec.ofInt 64 x = X
    generalize BitVec.ofInt 32 (-2 ^ k) = M
    apply BitVec.eq_of_getLsbD_eq
    intro i hi
    simp only [BitVec.getLsbD_and, BitVec.getLsbD_setWidth]
    by_cases h : i < 32
    · simp [h, hi]
    · have : M.getLsbD i = false := BitVec.getLsbD_of_ge M i (by omega)
      simp [this]
  show Ty.read ⟨sg, 64⟩ (BitVec.ofInt 64 x &&& BitVec.ofInt 64 (Ty.conv ⟨false, 32⟩ (-2 ^ k))) = _
  rw [e, ← mask_low hk32]
  have hlt := (BitVec.ofInt 32 x &&& BitVec.ofInt 32 (-2 ^ k)).isLt
  generalize BitVec.ofInt 32 x &&& BitVec.ofInt 32 (-2 ^ k) = r at hlt ⊢
  have hr : (r.setWidth 64).toNat = r.toNat := by rw [BitVec.toNat_setWidth]; omega
  unfold Ty.read
  dsimp only
  split
  · rw [BitVec.toInt_eq_toNat_cond, hr, if_pos (by omega)]
  · rw [hr]

/-! ## The property -/

/-- C113. The check is right for operands of any types, negative values included. -/
theorem check_correct (tv ta : Ty) (hv : tv.Std) (ha : ta.Std) (v : Int) (k : Nat) (hk : ta.Holds (2 ^ k)) :
    ∃ b, check tv v ta (2 ^ k) = some b ∧ (b = true ↔ (2 : Int) ^ k ∣ v) := by
  obtain ⟨m1, -, m3⟩ := mask_val ha hk
  have hkw : k < (result tv ta).bits := Nat.lt_of_lt_of_le (holds_pow m3).1 result_ge.2
  refine ⟨_, by rw [check, m1]; rfl, ?_⟩
  rw [beq_iff_eq, Ty.band, ofInt_conv, ofInt_conv]
  generalize result tv ta = c at *
  have hz : ∀ b : BitVec c.bits, c.read b = 0 ↔ b.toNat = 0 := by
    intro b
    unfold Ty.read
    split
    · constructor
      · intro e
        have : b = 0#c.bits := BitVec.eq_of_toInt_eq (by simpa using e)
        rw [this]; simp
      · intro e
        have : b = 0#c.bits := BitVec.eq_of_toNat_eq (by simpa using e)
        rw [this]; simp
    · omega
  rw [hz, BitVec.toNat_and]
  have e1 : (BitVec.ofInt c.bits (2 ^ k - 1)).toNat = 2 ^ k - 1 := by
    have := ofInt_toNat c.bits (2 ^ k - 1)
    have h0 : (0 : Int) < 2 ^ k := Int.pow_pos (by decide)
    have hlt : (2 : Int) ^ k < 2 ^ c.bits := by
      have : ((2 ^ k : Nat) : Int) < ((2 ^ c.bits : Nat) : Int) := by exact_mod_cast Nat.pow_lt_pow_right (by decide) hkw
      push_cast at this
      exact this
    rw [Int.emod_eq_of_lt (by omega) (by omega)] at this
    have hc : ((2 ^ k : Nat) : Int) = 2 ^ k := by push_cast; rfl
    have := Nat.two_pow_pos k
    omega
  rw [e1, Nat.and_two_pow_sub_one_eq_mod]
  have hx := ofInt_toNat c.bits v
  generalize (BitVec.ofInt c.bits v).toNat = X at hx ⊢
  have h8 : (v % 2 ^ c.bits) % 2 ^ k = v % 2 ^ k := Int.emod_emod_of_dvd v (by
    refine ⟨2 ^ (c.bits - k), ?_⟩
    rw [← Int.pow_add]
    congr 1
    omega)
  rw [← hx] at h8
  rw [Int.dvd_iff_emod_eq_zero, ← h8]
  have h9 : ((X : Int) % 2 ^ k) = ((X % 2 ^ k : Nat) : Int) := by push_cast; rfl
  rw [h9]
  omega

theorem low_wide {tv ta : Ty} (hv : tv.Std) (ha : ta.Std) {v : Int} (h : tv.Holds v) (h0 : 0 ≤ v ∨ (result tv ta).signed = true) {k : Nat} (hk : ta.Holds (2 ^ k))
    (hn : ¬ Narrow tv ta) : low tv v ta (2 ^ k) = some (v - v % 2 ^ k) := by
  obtain ⟨m1, -, m3⟩ := mask_val ha hk
  have hkw : k < (result tv ta).bits := Nat.lt_of_lt_of_le (holds_pow m3).1 result_ge.2
  have hh := value_kept (ta := ta) hv h h0
  rw [low, m1, Option.map_some, conv_id (by omega) hh, Ty.band, mask_wide ha hk hn, band_low hkw hh]

theorem low_narrow {tv ta : Ty} (hv : tv.Std) (ha : ta.Std) {v : Int} (h : tv.Holds v) {k : Nat} (hk : ta.Holds (2 ^ k)) (hn : Narrow tv ta) :
    low tv v ta (2 ^ k) = some (v % 2 ^ 32 - v % 2 ^ k) ∧ ta.promote.bits = 32 ∧ k < 32 := by
  obtain ⟨m1, -, -⟩ := mask_val ha hk
  have hh : (result tv ta).Holds v := by rw [result_narrow hn]; exact promote_holds hv h
  have hb : 0 < (result tv ta).bits := by have := result_std hv ha; omega
  obtain ⟨e, h1, h2⟩ := mask_narrow hv ha hk hn v hh
  exact ⟨by rw [low, m1, Option.map_some, conv_id hb hh, e], h1, h2⟩

/-- C113 (missing: alignments of a narrower unsigned type, see `low_violated`). Aligning down gives the greatest multiple of the alignment that is not above the value. -/
theorem low_correct_partial (tv ta : Ty) (hv : tv.Std) (ha : ta.Std) (v : Int) (h : tv.Holds v) (h0 : 0 ≤ v ∨ (result tv ta).signed = true) (k : Nat)
    (hk : ta.Holds (2 ^ k)) (hn : ¬ Narrow tv ta ∨ (0 ≤ v ∧ v < 2 ^ ta.promote.bits)) : ∃ r, low tv v ta (2 ^ k) = some r ∧ Below v (2 ^ k) r := by
  by_cases hN : Narrow tv ta
  · obtain ⟨e, h1, h2⟩ := low_narrow hv ha h hk hN
    rcases hn with hn | hn
    · exact absurd hN hn
    · rw [h1] at hn
      rw [Int.emod_eq_of_lt hn.1 hn.2] at e
      exact ⟨_, e, below_mod v k⟩
  · exact ⟨_, low_wide hv ha h h0 hk hN, below_mod v k⟩

/-- C113 fails in every other case: an alignment of type `unsigned int` and a value of a 64-bit type, or a pointer, that does not fit in 32 bits. The upper half of the
value is cleared. -/
theorem low_violated (tv ta : Ty) (hv : tv.Std) (ha : ta.Std) (v : Int) (h : tv.Holds v) (k : Nat) (hk : ta.Holds (2 ^ k)) (hn : Narrow tv ta)
    (hb : ¬ (0 ≤ v ∧ v < 2 ^ ta.promote.bits)) : ∃ r, low tv v ta (2 ^ k) = some r ∧ 0 ≤ r ∧ r < 2 ^ 32 ∧ ¬ Below v (2 ^ k) r := by
  obtain ⟨e, h1, h2⟩ := low_narrow hv ha h hk hn
  rw [h1] at hb
  have b0 : (0 : Int) < 2 ^ k := Int.pow_pos (by decide)
  have b1 := below_mod (v % 2 ^ 32) k
  have h8 : (v % 2 ^ 32) % 2 ^ k = v % 2 ^ k := Int.emod_emod_of_dvd v (by
    refine ⟨2 ^ (32 - k), ?_⟩
    rw [← Int.pow_add]
    congr 1
    omega)
  rw [h8] at b1
  have b2 := b1.2.2 0 ⟨0, by simp⟩ (by omega)
  have b3 := b1.2.1
  refine ⟨_, e, b2, by omega, fun hB => ?_⟩
  have := hB.unique (below_mod v k)
  omega

theorem above_of_below {v : Int} {k : Nat} : Above v (2 ^ k) ((v + (2 ^ k - 1)) - (v + (2 ^ k - 1)) % 2 ^ k) := by
  have b0 : (0 : Int) < 2 ^ k := Int.pow_pos (by decide)
  obtain ⟨⟨c, h1⟩, h2, h3⟩ := below_mod (v + (2 ^ k - 1)) k
  have h4 := Int.emod_lt_of_pos (v + (2 ^ k - 1)) b0
  refine ⟨⟨c, h1⟩, by omega, ?_⟩
  rintro _ ⟨d, rfl⟩ hd
  rw [h1]
  apply Int.mul_le_mul_of_nonneg_left _ (by omega)
  have : 2 ^ k * c < 2 ^ k * (d + 1) := by rw [Int.mul_add, Int.mul_one]; omega
  have := Int.lt_of_mul_lt_mul_left this (by omega)
  omega

theorem Above.unique {v a r r' : Int} (h : Above v a r) (h' : Above v a r') : r = r' :=
  Int.le_antisymm (h.2.2 r' h'.1 h'.2.1) (h'.2.2 r h.1 h.2.1)

theorem mask_kept {tv ta : Ty} (hv : tv.Std) (ha : ta.Std) {k : Nat} (hk : ta.Holds (2 ^ k)) : (result tv ta).conv (2 ^ k - 1) = 2 ^ k - 1 := by
  have hkw : k < (result tv ta).bits := Nat.lt_of_lt_of_le (holds_pow (mask_val ha hk).2.2).1 result_ge.2
  apply conv_id (by omega)
  have b0 : (0 : Int) < 2 ^ k := Int.pow_pos (by decide)
  have mono : ∀ {a b : Nat}, a ≤ b → (2 : Int) ^ a ≤ 2 ^ b := by
    intro a b hab
    have : ((2 ^ a : Nat) : Int) ≤ ((2 ^ b : Nat) : Int) := by exact_mod_cast Nat.pow_le_pow_right (by decide) hab
    push_cast at this
    exact this
  have m1 := mono (show k ≤ (result tv ta).bits - 1 by omega)
  have m2 := mono (show k ≤ (result tv ta).bits by omega)
  unfold Ty.Holds
  split <;> omega

theorem high_eq {tv ta : Ty} (hv : tv.Std) (ha : ta.Std) {v : Int} (h : tv.Holds v) (h0 : 0 ≤ v ∨ (result tv ta).signed = true) {k : Nat} (hk : ta.Holds (2 ^ k)) :
    high tv v ta (2 ^ k) = ((result tv ta).arith (v + (2 ^ k - 1))).map fun s =>
      (result tv ta).band s ((result tv ta).conv (ta.promote.bnot (2 ^ k - 1))) := by
  have hb : 0 < (result tv ta).bits := by have := result_std hv ha; omega
  rw [high, (mask_val ha hk).1, Option.bind_some, conv_id hb (value_kept hv h h0), mask_kept hv ha hk]

theorem arith_holds {t : Ty} (ht : 0 < t.bits) {x : Int} (h : t.Holds x) : t.arith x = some x := by
  unfold Ty.arith
  split
  · rfl
  · rw [conv_id ht h]

/-- C113 (missing: alignments of a narrower unsigned type, see `high_violated`, and sums that do not fit, see `high_overflow_violated`). Aligning up gives the least
multiple of the alignment that is not below the value. -/
theorem high_correct_partial (tv ta : Ty) (hv : tv.Std) (ha : ta.Std) (v : Int) (h : tv.Holds v) (h0 : 0 ≤ v ∨ (result tv ta).signed = true) (k : Nat)
    (hk : ta.Holds (2 ^ k)) (hs : (result tv ta).Holds (v + (2 ^ k - 1)))
    (hn : ¬ Narrow tv ta ∨ (0 ≤ v + (2 ^ k - 1) ∧ v + (2 ^ k - 1) < 2 ^ ta.promote.bits)) : ∃ r, high tv v ta (2 ^ k) = some r ∧ Above v (2 ^ k) r := by
  have hb : 0 < (result tv ta).bits := by have := result_std hv ha; omega
  rw [high_eq hv ha h h0 hk, arith_holds hb hs, Option.map_some]
  refine ⟨_, rfl, ?_⟩
  by_cases hN : Narrow tv ta
  · obtain ⟨e, h1, h2⟩ := mask_narrow hv ha hk hN _ hs
    rcases hn with hn | hn
    · exact absurd hN hn
    · rw [h1] at hn
      rw [e, Int.emod_eq_of_lt hn.1 hn.2]
      exact above_of_below
  · have hkw : k < (result tv ta).bits := Nat.lt_of_lt_of_le (holds_pow (mask_val ha hk).2.2).1 result_ge.2
    rw [Ty.band, mask_wide ha hk hN, band_low hkw hs]
    exact above_of_below

/-- C113 fails for alignments of type `unsigned int` and 64-bit values beyond. -/
theorem high_violated (tv ta : Ty) (hv : tv.Std) (ha : ta.Std) (v : Int) (h : tv.Holds v) (k : Nat) (hk : ta.Holds (2 ^ k)) (hn : Narrow tv ta)
    (hs : (result tv ta).Holds (v + (2 ^ k - 1))) (hb : ¬ (0 ≤ v + (2 ^ k - 1) ∧ v + (2 ^ k - 1) < 2 ^ ta.promote.bits)) :
    ∃ r, high tv v ta (2 ^ k) = some r ∧ ¬ Above v (2 ^ k) r := by
  have hbits : 0 < (result tv ta).bits := by have := result_std hv ha; omega
  have hh : (result tv ta).Holds v := by rw [result_narrow hn]; exact promote_holds hv h
  have h0 : 0 ≤ v ∨ (result tv ta).signed = true := by
    unfold Ty.Holds at hh
    split at hh
    · next e => exact Or.inr e
    · exact Or.inl hh.1
  obtain ⟨e, h1, h2⟩ := mask_narrow hv ha hk hn _ hs
  rw [h1] at hb
  rw [high_eq hv ha h h0 hk, arith_holds hbits hs, Option.map_some, e]
  refine ⟨_, rfl, fun hA => ?_⟩
  have := hA.unique above_of_below
  omega

/-- C113 fails where the sum does not fit in the common type: undefined behaviour if that is signed, a result that is too small otherwise. -/
theorem high_overflow_violated (tv ta : Ty) (hv : tv.Std) (ha : ta.Std) (v : Int) (h : tv.Holds v) (h0 : 0 ≤ v ∨ (result tv ta).signed = true) (k : Nat)
    (hk : ta.Holds (2 ^ k)) (hs : ¬ (result tv ta).Holds (v + (2 ^ k - 1))) :
    if (result tv ta).signed then high tv v ta (2 ^ k) = none else ∃ r, high tv v ta (2 ^ k) = some r ∧ r < v := by
  have hbits : 0 < (result tv ta).bits := by have := result_std hv ha; omega
  have hkw : k < (result tv ta).bits := Nat.lt_of_lt_of_le (holds_pow (mask_val ha hk).2.2).1 result_ge.2
  have hh := value_kept (ta := ta) hv h h0
  have b0 : (0 : Int) < 2 ^ k := Int.pow_pos (by decide)
  have hlt : (2 : Int) ^ k < 2 ^ (result tv ta).bits := by
    have : ((2 ^ k : Nat) : Int) < ((2 ^ (result tv ta).bits : Nat) : Int) := by exact_mod_cast Nat.pow_lt_pow_right (by decide) hkw
    push_cast at this
    exact this
  rw [high_eq hv ha h h0 hk]
  split
  · next sg => rw [Ty.arith, if_pos sg, if_neg hs]; rfl
  · next sg =>
    rw [Ty.arith, if_neg sg, Option.map_some]
    refine ⟨_, rfl, ?_⟩
    have hc := conv_holds (result tv ta) hbits (v + (2 ^ k - 1))
    have hval : (result tv ta).conv (v + (2 ^ k - 1)) = v + (2 ^ k - 1) - 2 ^ (result tv ta).bits := by
      rw [Ty.conv, Ty.read, if_neg sg, ofInt_toNat, ← Int.sub_emod_right]
      unfold Ty.Holds at hs hh
      rw [if_neg sg] at hs hh
      exact Int.emod_eq_of_lt (by omega) (by omega)
    by_cases hN : Narrow tv ta
    · obtain ⟨e, h1, h2⟩ := mask_narrow hv ha hk hN _ hc
      rw [e, hval]
      unfold Ty.Holds at hc
      rw [if_neg sg, hval] at hc
      have h3 := Int.emod_nonneg (v + (2 ^ k - 1) - 2 ^ (result tv ta).bits) (b := 2 ^ k) (by omega)
      have h4 : (v + (2 ^ k - 1) - 2 ^ (result tv ta).bits) % 2 ^ 32 ≤ v + (2 ^ k - 1) - 2 ^ (result tv ta).bits := by
        generalize v + (2 ^ k - 1) - 2 ^ (result tv ta).bits = z at hc
        omega
      omega
    · rw [Ty.band, mask_wide ha hk hN, band_low hkw hc, hval]
      have := Int.emod_nonneg (v + (2 ^ k - 1) - 2 ^ (result tv ta).bits) (b := 2 ^ k) (by omega)
      omega

/-! ### Pointers and variables -/

theorem narrow_pointer {ta : Ty} (ha : ta.Std) : Narrow uintptr ta ↔ ta = ⟨false, 32⟩ := by
  obtain ⟨s, w⟩ := ta
  unfold Narrow uintptr Ty.promote
  rcases ha with h | h | h | h <;> dsimp only at h <;> subst h <;> cases s <;> simp

/-- C113 for pointers (missing: alignments of type `unsigned int`, which cut pointers above 4 GiB, see `pointer_violated`). -/
theorem pointer_correct_partial (ta : Ty) (ha : ta.Std) (hu : ta ≠ ⟨false, 32⟩) (p : Int) (hp : 0 ≤ p ∧ p < 2 ^ 64) (k : Nat) (hk : ta.Holds (2 ^ k)) :
    (∃ b, ptrCheck p ta (2 ^ k) = some b ∧ (b = true ↔ (2 : Int) ^ k ∣ p)) ∧ (∃ r, ptrLow p ta (2 ^ k) = some r ∧ Below p (2 ^ k) r) ∧
      (p + (2 ^ k - 1) < 2 ^ 64 → ∃ r, ptrHigh p ta (2 ^ k) = some r ∧ Above p (2 ^ k) r) := by
  have hu' : uintptr.Std := Or.inr (Or.inr (Or.inr rfl))
  have hn : ¬ Narrow uintptr ta := fun h => hu ((narrow_pointer ha).1 h)
  have hh : uintptr.Holds p := hp
  refine ⟨check_correct _ _ hu' ha p k hk, low_correct_partial _ _ hu' ha p hh (Or.inl hp.1) k hk (Or.inl hn), fun hs => ?_⟩
  refine high_correct_partial _ _ hu' ha p hh (Or.inl hp.1) k hk ?_ (Or.inl hn)
  have b0 : (0 : Int) < 2 ^ k := Int.pow_pos (by decide)
  have hr : result uintptr ta = ⟨false, 64⟩ := by
    obtain ⟨s, w⟩ := ta
    rcases ha with h | h | h | h <;> dsimp only at h <;> subst h <;> cases s <;> rfl
  rw [hr]
  show 0 ≤ p + (2 ^ k - 1) ∧ p + (2 ^ k - 1) < 2 ^ 64
  omega

/-- C113 fails for every pointer from 4 GiB on and an alignment of type `unsigned int`: the pointer loses its upper half. -/
theorem pointer_violated (p : Int) (hp : 2 ^ 32 ≤ p ∧ p < 2 ^ 64) (k : Nat) (hk : k < 32) :
    ∃ r, ptrLow p ⟨false, 32⟩ (2 ^ k) = some r ∧ r < 2 ^ 32 ∧ ¬ Below p (2 ^ k) r := by
  have hl : (2 : Int) ^ k < 2 ^ 32 := pow_lt hk
  have b0 : (0 : Int) < 2 ^ k := Int.pow_pos (by decide)
  obtain ⟨r, e, -, h2, h3⟩ := low_violated uintptr ⟨false, 32⟩ (Or.inr (Or.inr (Or.inr rfl))) (Or.inr (Or.inr (Or.inl rfl))) p
    (show 0 ≤ p ∧ p < 2 ^ 64 by omega) k (show 0 ≤ (2 : Int) ^ k ∧ (2 : Int) ^ k < 2 ^ 32 by omega) ((narrow_pointer (Or.inr (Or.inr (Or.inl rfl)))).2 rfl)
    (fun h => by have : p < 2 ^ 32 := h.2; omega)
  exact ⟨r, e, h2, h3⟩

/-- C113. Aligning a variable down in place: the result always fits in the variable (missing as in `low_correct_partial`). -/
theorem low_adj_partial (tv ta : Ty) (hv : tv.Std) (ha : ta.Std) (v : Int) (h : tv.Holds v) (h0 : 0 ≤ v) (k : Nat)
    (hk : ta.Holds (2 ^ k)) (hn : ¬ Narrow tv ta ∨ (0 ≤ v ∧ v < 2 ^ ta.promote.bits)) : ∃ r, lowAdj tv v ta (2 ^ k) = some r ∧ Below v (2 ^ k) r := by
  obtain ⟨r, e, hB⟩ := low_correct_partial tv ta hv ha v h (Or.inl h0) k hk hn
  have h1 := hB.2.1
  have h2 := hB.2.2 0 ⟨0, by simp⟩ h0
  have hb : 0 < tv.bits := by rcases hv with h | h | h | h <;> omega
  refine ⟨r, ?_, hB⟩
  rw [lowAdj, e, Option.map_some, conv_id hb]
  unfold Ty.Holds at h ⊢
  have : (0 : Int) < 2 ^ (tv.bits - 1) := Int.pow_pos (by decide)
  split at h <;> next hs => simp only [hs, if_true, if_false, Bool.false_eq_true]; omega

/-- C113. Aligning a variable up in place, if the result fits in the variable (missing as in `high_correct_partial`). -/
theorem high_adj_partial (tv ta : Ty) (hv : tv.Std) (ha : ta.Std) (v : Int) (h : tv.Holds v) (h0 : 0 ≤ v) (k : Nat)
    (hk : ta.Holds (2 ^ k)) (hs : (result tv ta).Holds (v + (2 ^ k - 1))) (hn : ¬ Narrow tv ta ∨ v + (2 ^ k - 1) < 2 ^ ta.promote.bits)
    (m : Int) (hm : Above v (2 ^ k) m) (hfit : tv.Holds m) : highAdj tv v ta (2 ^ k) = some m := by
  have b0 : (0 : Int) < 2 ^ k := Int.pow_pos (by decide)
  obtain ⟨r, e, hA⟩ := high_correct_partial tv ta hv ha v h (Or.inl h0) k hk hs (hn.imp id fun h => ⟨by omega, h⟩)
  have hb : 0 < tv.bits := by rcases hv with h | h | h | h <;> omega
  rw [highAdj, e, Option.map_some, hA.unique hm, conv_id hb hfit]

/-! ### Concrete cases -/

def int : Ty := ⟨true, 32⟩
def uint : Ty := ⟨false, 32⟩
def u64 : Ty := ⟨false, 64⟩
def s8 : Ty := ⟨true, 8⟩

-- an `unsigned long` and an `int`, as in `bfdev_align_high_adj(capacity, BFDEV_BITS_PER_LONG)`
example : u64.Std ∧ int.Std ∧ u64.Holds 0x1234567890 ∧ int.Holds (2 ^ 6) ∧ ¬ Narrow u64 int ∧ (result u64 int).Holds (0x1234567890 + (2 ^ 6 - 1)) := by
  unfold Ty.Std; decide
example : low u64 0x1234567890 int (2 ^ 6) = some 0x1234567880 ∧ high u64 0x1234567890 int (2 ^ 6) = some 0x12345678c0 := by decide
-- a negative `signed char`
example : low s8 (-5) int (2 ^ 3) = some (-8) ∧ high s8 (-5) int (2 ^ 3) = some 0 ∧ check s8 (-8) uint (2 ^ 3) = some true := by decide
-- a pointer and an `unsigned int`
example : Narrow uintptr uint ∧ ptrLow 0x7f0012345678 uint 16 = some 0x12345670 ∧ ptrHigh 0x7f0012345678 uint 16 = some 0x12345680 := by decide
-- an `unsigned int` aligned up in place to 0
example : highAdj uint 0xfffffff1 int 16 = some 0 ∧ highAdj uint 0xfffffff1 u64 16 = some 0 ∧ high uint 0xfffffff1 u64 16 = some 0x100000000 := by decide
example : high int 0x7ffffff1 int 16 = none := by decide

end Bfdev.Align

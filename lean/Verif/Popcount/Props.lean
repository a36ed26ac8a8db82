import Verif.Popcount.Model
/-! Property theorems for population count and parity (C49). -/
set_option linter.unusedSimpArgs false
namespace Bfdev.Popcount

/-- Specification: the number of positions holding a one bit. -/
def ones {w : Nat} (v : BitVec w) : Nat := ((List.range w).filter (fun i => v.getLsbD i)).length

theorem range_add (a b : Nat) : List.range (a + b) = List.range a ++ (List.range b).map (a + ·) := by
  induction b with
  | zero => simp
  | succ n ih => rw [← Nat.add_assoc, List.range_succ, ih, List.range_succ, List.map_append, List.append_assoc]; rfl

theorem ones_append {a b : Nat} (hi : BitVec a) (lo : BitVec b) : ones (hi ++ lo) = ones hi + ones lo := by
  unfold ones
  have e : List.range (a + b) = List.range b ++ (List.range a).map (b + ·) := by rw [Nat.add_comm]; exact range_add b a
  simp only [e]
  rw [List.filter_append, List.length_append, Nat.add_comm]
  congr 1
  · rw [List.filter_map, List.length_map]
    congr 1
    apply List.filter_congr
    intro x _
    simp [BitVec.getLsbD_append]
  · congr 1
    apply List.filter_congr
    intro x hx
    have : x < b := by simpa using hx
    simp [BitVec.getLsbD_append, this]

theorem ones_xor {w : Nat} (a b : BitVec w) : ones (a ^^^ b) % 2 = (ones a + ones b) % 2 := by
  unfold ones
  induction (List.range w) with
  | nil => simp
  | cons x l ih =>
    simp only [List.filter_cons, BitVec.getLsbD_xor] at ih ⊢
    cases a.getLsbD x <;> cases b.getLsbD x <;> simp at ih ⊢ <;> omega

/-- The folding step works on the two halves of a word separately when the mask is repeated and its fields cannot carry. -/
theorem foldStep_append {w : Nat} (s : Nat) (m hi lo : BitVec w)
    (hm : ∀ i, w ≤ i + s → m.getLsbD i = false) (hc : 2 * m.toNat < 2 ^ w) :
    foldStep s (m ++ m) (hi ++ lo) = foldStep s m hi ++ foldStep s m lo := by
  unfold foldStep
  have e1 : (hi ++ lo) &&& (m ++ m) = (hi &&& m) ++ (lo &&& m) := by
    ext i hi'
    simp [BitVec.getElem_append]
  have e2 : ((hi ++ lo) >>> s) &&& (m ++ m) = ((hi >>> s) &&& m) ++ ((lo >>> s) &&& m) := by
    apply BitVec.eq_of_getLsbD_eq
    intro i hi'
    simp only [BitVec.getLsbD_and, BitVec.getLsbD_ushiftRight, BitVec.getLsbD_append]
    by_cases h1 : i < w
    · by_cases h2 : s + i < w
      · simp [h1, h2]
      · have := hm i (by omega)
        simp only [h1, h2, this, decide_true, decide_false, cond_true, cond_false, if_true, if_false, Bool.and_false]
    · have h2 : ¬ s + i < w := by omega
      simp [h1, h2]
      congr 2; omega
  rw [e1, e2]
  apply BitVec.eq_of_toNat_eq
  rw [BitVec.toNat_add, BitVec.toNat_append, BitVec.toNat_append, BitVec.toNat_append, BitVec.toNat_add,
    BitVec.toNat_add]
  have hle : ∀ x : BitVec w, (x &&& m).toNat ≤ m.toNat := by
    intro x; rw [BitVec.toNat_and]; exact Nat.and_le_right
  have a1 := hle hi; have a2 := hle lo; have a3 := hle (hi >>> s); have a4 := hle (lo >>> s)
  generalize (hi &&& m).toNat = A at *
  generalize (lo &&& m).toNat = B at *
  generalize ((hi >>> s) &&& m).toNat = C at *
  generalize ((lo >>> s) &&& m).toNat = D at *
  rw [Nat.mod_eq_of_lt (show A + C < 2 ^ w by omega), Nat.mod_eq_of_lt (show B + D < 2 ^ w by omega)]
  rw [← Nat.shiftLeft_add_eq_or_of_lt (show B < 2 ^ w by omega), ← Nat.shiftLeft_add_eq_or_of_lt (show D < 2 ^ w by omega),
    ← Nat.shiftLeft_add_eq_or_of_lt (show B + D < 2 ^ w by omega)]
  simp only [Nat.shiftLeft_eq]
  rw [Nat.pow_add]
  have h3 : (A + C) * 2 ^ w + 2 ^ w ≤ 2 ^ w * 2 ^ w := by
    rw [← Nat.succ_mul]; exact Nat.mul_le_mul_right _ (by omega)
  rw [Nat.add_mul] at *
  rw [Nat.mod_eq_of_lt (by omega)]
  omega

/-- The last folding step adds the two halves. -/
theorem foldStep_last {w : Nat} (hw : 1 ≤ w) (m : BitVec (w + w)) (hm : m.toNat = 2 ^ w - 1) (hi lo : BitVec w)
    (hs : hi.toNat + lo.toNat < 2 ^ w) : (foldStep w m (hi ++ lo)).toNat = hi.toNat + lo.toNat := by
  unfold foldStep
  have hl := lo.isLt
  have hp : 0 < 2 ^ w := Nat.two_pow_pos w
  have hpw : 2 ^ (w + w) = 2 ^ w * 2 ^ w := Nat.pow_add 2 w w
  have hhl := hi.isLt
  have hle : 2 ^ w * 1 ≤ 2 ^ w * 2 ^ w := Nat.mul_le_mul_left _ hp
  rw [BitVec.toNat_add, BitVec.toNat_and, BitVec.toNat_and, BitVec.toNat_ushiftRight, hm, BitVec.toNat_append,
    Nat.and_two_pow_sub_one_eq_mod, Nat.and_two_pow_sub_one_eq_mod, ← Nat.shiftLeft_add_eq_or_of_lt hl,
    Nat.shiftLeft_eq, Nat.shiftRight_eq_div_pow]
  have e1 : (hi.toNat * 2 ^ w + lo.toNat) % 2 ^ w = lo.toNat := by
    rw [Nat.mul_add_mod_self_right, Nat.mod_eq_of_lt hl]
  have e2 : (hi.toNat * 2 ^ w + lo.toNat) / 2 ^ w = hi.toNat := by
    rw [Nat.add_comm, Nat.add_mul_div_right _ _ hp, Nat.div_eq_of_lt hl, Nat.zero_add]
  rw [e1, e2, Nat.mod_eq_of_lt hhl, hpw, Nat.mod_eq_of_lt (by omega)]
  omega

theorem popcount8_table : ∀ v : BitVec 8, popcount8Const v = ones v := by decide +kernel

theorem ones_le {w : Nat} (v : BitVec w) : ones v ≤ w := by
  unfold ones
  exact Nat.le_trans (List.length_filter_le _ _) (by simp)

/-- A 16-bit word is the concatenation of its halves. -/
theorem split_append {w : Nat} (v : BitVec (w + w)) :
    v = (v >>> w).setWidth w ++ v.setWidth w := by
  apply BitVec.eq_of_getLsbD_eq
  intro i hi
  rw [BitVec.getLsbD_append]
  by_cases h : i < w
  · simp [h]
  · simp only [h, decide_false, cond_false, if_false]
    have : i - w < w := by omega
    have e : w + (i - w) = i := by omega
    simp only [this, decide_true, Bool.true_and, BitVec.getLsbD_setWidth, BitVec.getLsbD_ushiftRight, e]

theorem mask_top {w : Nat} (m : BitVec w) (s : Nat) (h : ∀ i : Fin w, w ≤ i.val + s → m.getLsbD i.val = false) :
    ∀ i, w ≤ i + s → m.getLsbD i = false := by
  intro i hi
  by_cases h1 : i < w
  · exact h ⟨i, h1⟩ hi
  · exact BitVec.getLsbD_of_ge _ _ (by omega)

theorem pop16_halves (hi lo : BitVec 8) : popcount16Const (hi ++ lo) = popcount8Const hi + popcount8Const lo := by
  have hh := popcount8_table hi; have hl := popcount8_table lo
  have b1 := ones_le hi; have b2 := ones_le lo
  unfold popcount8Const at hh hl
  simp only at hh hl
  unfold popcount16Const popcount8Const
  simp only
  rw [show (0x5555#16) = 0x55#8 ++ 0x55#8 by decide, show (0x3333#16) = 0x33#8 ++ 0x33#8 by decide,
    show (0x0f0f#16) = 0x0f#8 ++ 0x0f#8 by decide,
    foldStep_append 1 0x55#8 _ _ (mask_top _ _ (by decide)) (by decide),
    foldStep_append 2 0x33#8 _ _ (mask_top _ _ (by decide)) (by decide),
    foldStep_append 4 0x0f#8 _ _ (mask_top _ _ (by decide)) (by decide)]
  rw [foldStep_last (w := 8) (by decide) (0x00ff#16) (by decide) _ _ (by rw [hh, hl]; omega)]

theorem pop16_correct (v : BitVec 16) : popcount16Const v = ones v := by
  rw [split_append (w := 8) v, pop16_halves, popcount8_table, popcount8_table, ones_append]

theorem pop32_halves (hi lo : BitVec 16) : popcount32Const (hi ++ lo) = popcount16Const hi + popcount16Const lo := by
  have hh := pop16_correct hi; have hl := pop16_correct lo
  have b1 := ones_le hi; have b2 := ones_le lo
  unfold popcount16Const at hh hl
  simp only at hh hl
  unfold popcount32Const popcount16Const
  simp only
  rw [show (0x55555555#32) = 0x5555#16 ++ 0x5555#16 by decide, show (0x33333333#32) = 0x3333#16 ++ 0x3333#16 by decide,
    show (0x0f0f0f0f#32) = 0x0f0f#16 ++ 0x0f0f#16 by decide, show (0x00ff00ff#32) = 0x00ff#16 ++ 0x00ff#16 by decide,
    foldStep_append 1 0x5555#16 _ _ (mask_top _ _ (by decide)) (by decide),
    foldStep_append 2 0x3333#16 _ _ (mask_top _ _ (by decide)) (by decide),
    foldStep_append 4 0x0f0f#16 _ _ (mask_top _ _ (by decide)) (by decide),
    foldStep_append 8 0x00ff#16 _ _ (mask_top _ _ (by decide)) (by decide)]
  rw [foldStep_last (w := 16) (by decide) (0x0000ffff#32) (by decide) _ _ (by rw [hh, hl]; omega)]

theorem pop32_correct (v : BitVec 32) : popcount32Const v = ones v := by
  rw [split_append (w := 16) v, pop32_halves, pop16_correct, pop16_correct, ones_append]

theorem pop64_halves (hi lo : BitVec 32) : popcount64Const (hi ++ lo) = popcount32Const hi + popcount32Const lo := by
  have hh := pop32_correct hi; have hl := pop32_correct lo
  have b1 := ones_le hi; have b2 := ones_le lo
  unfold popcount32Const at hh hl
  simp only at hh hl
  unfold popcount64Const popcount32Const
  simp only
  rw [show (0x5555555555555555#64) = 0x55555555#32 ++ 0x55555555#32 by decide,
    show (0x3333333333333333#64) = 0x33333333#32 ++ 0x33333333#32 by decide,
    show (0x0f0f0f0f0f0f0f0f#64) = 0x0f0f0f0f#32 ++ 0x0f0f0f0f#32 by decide,
    show (0x00ff00ff00ff00ff#64) = 0x00ff00ff#32 ++ 0x00ff00ff#32 by decide,
    show (0x0000ffff0000ffff#64) = 0x0000ffff#32 ++ 0x0000ffff#32 by decide,
    foldStep_append 1 0x55555555#32 _ _ (mask_top _ _ (by decide)) (by decide),
    foldStep_append 2 0x33333333#32 _ _ (mask_top _ _ (by decide)) (by decide),
    foldStep_append 4 0x0f0f0f0f#32 _ _ (mask_top _ _ (by decide)) (by decide),
    foldStep_append 8 0x00ff00ff#32 _ _ (mask_top _ _ (by decide)) (by decide),
    foldStep_append 16 0x0000ffff#32 _ _ (mask_top _ _ (by decide)) (by decide)]
  rw [BitVec.toNat_setWidth, foldStep_last (w := 32) (by decide) (0x00000000ffffffff#64) (by decide) _ _
    (by rw [hh, hl]; omega), hh, hl]
  omega

theorem pop64_correct (v : BitVec 64) : popcount64Const v = ones v := by
  rw [split_append (w := 32) v, pop64_halves, pop32_correct, pop32_correct, ones_append]

theorem pop8_dynamic : ∀ v : BitVec 8, popcount8Dynamic v = some (ones v) := by decide +kernel

theorem pop16_dynamic (v : BitVec 16) : popcount16Dynamic v = some (ones v) := by
  rw [show ones v = ones ((v >>> 8).setWidth 8 ++ v.setWidth 8) from congrArg ones (split_append (w := 8) v), ones_append]
  simp [popcount16Dynamic, pop8_dynamic]

theorem pop32_dynamic (v : BitVec 32) : popcount32Dynamic v = some (ones v) := by
  rw [show ones v = ones ((v >>> 16).setWidth 16 ++ v.setWidth 16) from congrArg ones (split_append (w := 16) v), ones_append]
  simp [popcount32Dynamic, pop16_dynamic]

theorem pop64_dynamic (v : BitVec 64) : popcount64Dynamic v = some (ones v) := by
  rw [show ones v = ones ((v >>> 32).setWidth 32 ++ v.setWidth 32) from congrArg ones (split_append (w := 32) v), ones_append]
  simp [popcount64Dynamic, pop32_dynamic]

/-- **C49, population count.** Every variant (constant expression and table) at every width counts the one bits. -/
theorem popcount_correct :
    (∀ v : BitVec 8, popcount8Const v = ones v ∧ popcount8Dynamic v = some (ones v)) ∧
    (∀ v : BitVec 16, popcount16Const v = ones v ∧ popcount16Dynamic v = some (ones v)) ∧
    (∀ v : BitVec 32, popcount32Const v = ones v ∧ popcount32Dynamic v = some (ones v)) ∧
    (∀ v : BitVec 64, popcount64Const v = ones v ∧ popcount64Dynamic v = some (ones v)) :=
  ⟨fun v => ⟨popcount8_table v, pop8_dynamic v⟩, fun v => ⟨pop16_correct v, pop16_dynamic v⟩,
   fun v => ⟨pop32_correct v, pop32_dynamic v⟩, fun v => ⟨pop64_correct v, pop64_dynamic v⟩⟩

/-! ### Parity -/

/-- Specification: is the number of one bits odd? -/
def odd {w : Nat} (v : BitVec w) : Bool := ones v % 2 == 1

theorem par8_const : ∀ v : BitVec 8, popparity8Const v = odd v := by decide +kernel

theorem odd_fold {w : Nat} (v : BitVec (w + w)) : odd v = odd ((v ^^^ (v >>> w)).setWidth w) := by
  have e1 : (v ^^^ (v >>> w)).setWidth w = (v >>> w).setWidth w ^^^ v.setWidth w := by
    apply BitVec.eq_of_getLsbD_eq
    intro i hi
    simp [hi, Bool.xor_comm]
  unfold odd
  rw [e1, ones_xor, ← ones_append, ← split_append]

theorem nibble_setWidth {w : Nat} (hw : 4 ≤ w) (v : BitVec (w + w)) :
    nibbleParity (v.setWidth w) = nibbleParity v := by
  have e : (v.setWidth w &&& (15 : BitVec w)).toNat = (v &&& (15 : BitVec (w + w))).toNat := by
    have h2 : 2 ^ 4 ≤ 2 ^ w := Nat.pow_le_pow_right (by omega) hw
    have h3 : 2 ^ 4 ≤ 2 ^ (w + w) := Nat.pow_le_pow_right (by omega) (by omega)
    have e15 : (15 : BitVec w).toNat = 2 ^ 4 - 1 := by
      show 15 % 2 ^ w = _; rw [Nat.mod_eq_of_lt (by omega)]
    have e15' : (15 : BitVec (w + w)).toNat = 2 ^ 4 - 1 := by
      show 15 % 2 ^ (w + w) = _; rw [Nat.mod_eq_of_lt (by omega)]
    rw [BitVec.toNat_and, BitVec.toNat_and, e15, e15', Nat.and_two_pow_sub_one_eq_mod, Nat.and_two_pow_sub_one_eq_mod,
      BitVec.toNat_setWidth, Nat.mod_mod_of_dvd _ (Nat.pow_dvd_pow 2 hw)]
  unfold nibbleParity
  exact congrArg (fun k => (0x6996 >>> k) % 2 == 1) e.symm ▸ rfl

theorem fold_setWidth {w s : Nat} (v : BitVec (w + w)) (i : Nat) (hi : i + s < w) :
    ((v ^^^ (v >>> s)).setWidth w).getLsbD i = ((v.setWidth w) ^^^ (v.setWidth w >>> s)).getLsbD i := by
  have h1 : i < w := by omega
  have h2 : s + i < w := by omega
  simp [h1, h2]

/-- The low nibble decides `nibbleParity`. -/
theorem nibble_congr {w : Nat} (a b : BitVec w) (h : ∀ i, i < 4 → a.getLsbD i = b.getLsbD i) :
    nibbleParity a = nibbleParity b := by
  have : a &&& (15 : BitVec w) = b &&& (15 : BitVec w) := by
    apply BitVec.eq_of_getLsbD_eq
    intro i hi
    rw [BitVec.getLsbD_and, BitVec.getLsbD_and]
    by_cases h4 : i < 4
    · rw [h i h4]
    · have : (15 : BitVec w).getLsbD i = false := by
        show (BitVec.ofNat w 15).getLsbD i = false
        rw [BitVec.getLsbD_ofNat]
        have : Nat.testBit 15 i = false := by
          apply Nat.testBit_lt_two_pow
          calc 15 < 2 ^ 4 := by decide
            _ ≤ 2 ^ i := Nat.pow_le_pow_right (by omega) (by omega)
        simp [this]
      rw [this, Bool.and_false, Bool.and_false]
  unfold nibbleParity; rw [this]

theorem par16_const (v : BitVec 16) : popparity16Const v = odd v := by
  rw [odd_fold (w := 8) v, ← par8_const]
  unfold popparity16Const popparity8Const
  simp only
  generalize v ^^^ (v >>> 8) = x
  rw [← nibble_setWidth (w := 8) (by decide)]
  exact nibble_congr _ _ (fun i hi => fold_setWidth (w := 8) (s := 4) x i (by omega))

theorem xor_shift_congr {w s k : Nat} (a b : BitVec w) (h : ∀ i, i < k + s → a.getLsbD i = b.getLsbD i) :
    ∀ i, i < k → (a ^^^ (a >>> s)).getLsbD i = (b ^^^ (b >>> s)).getLsbD i := by
  intro i hi
  simp only [BitVec.getLsbD_xor, BitVec.getLsbD_ushiftRight]
  rw [h i (by omega), h (s + i) (by omega)]

theorem par32_const (v : BitVec 32) : popparity32Const v = odd v := by
  rw [odd_fold (w := 16) v, ← par16_const]
  unfold popparity32Const popparity16Const
  simp only
  generalize v ^^^ (v >>> 16) = x
  rw [← nibble_setWidth (w := 16) (by decide)]
  apply nibble_congr
  intro i hi
  rw [fold_setWidth (w := 16) (s := 4) _ i (by omega)]
  apply xor_shift_congr (k := 4) _ _ _ i hi
  intro j hj
  exact fold_setWidth (w := 16) (s := 8) x j (by omega)

theorem par64_const (v : BitVec 64) : popparity64Const v = odd v := by
  rw [odd_fold (w := 32) v, ← par32_const]
  unfold popparity64Const popparity32Const
  simp only
  generalize v ^^^ (v >>> 32) = x
  rw [← nibble_setWidth (w := 32) (by decide)]
  apply nibble_congr
  intro i hi
  rw [fold_setWidth (w := 32) (s := 4) _ i (by omega)]
  apply xor_shift_congr (k := 4) _ _ _ i hi
  intro j hj
  rw [fold_setWidth (w := 32) (s := 8) _ j (by omega)]
  apply xor_shift_congr (k := 8) _ _ _ j hj
  intro l hl
  exact fold_setWidth (w := 32) (s := 16) x l (by omega)

theorem par8_dynamic : ∀ v : BitVec 8, popparity8Dynamic v = some (odd v) := by decide +kernel

theorem odd_toNat {w : Nat} (v : BitVec w) : (odd v).toNat = ones v % 2 := by
  unfold odd
  rcases Nat.mod_two_eq_zero_or_one (ones v) with h | h <;> simp [h]

theorem odd_halves {w : Nat} (v : BitVec (w + w)) :
    (((odd (v.setWidth w)).toNat + (odd ((v >>> w).setWidth w)).toNat) % 2 == 1) = odd v := by
  have h : ones v = ones ((v >>> w).setWidth w ++ v.setWidth w) := congrArg ones (split_append v)
  rw [odd_toNat, odd_toNat]
  conv => rhs; unfold odd; rw [h, ones_append]
  congr 1; omega

theorem par16_dynamic (v : BitVec 16) : popparity16Dynamic v = some (odd v) := by
  rw [← odd_halves (w := 8) v]; simp [popparity16Dynamic, par8_dynamic]
theorem par32_dynamic (v : BitVec 32) : popparity32Dynamic v = some (odd v) := by
  rw [← odd_halves (w := 16) v]; simp [popparity32Dynamic, par16_dynamic]
theorem par64_dynamic (v : BitVec 64) : popparity64Dynamic v = some (odd v) := by
  rw [← odd_halves (w := 32) v]; simp [popparity64Dynamic, par32_dynamic]

/-- **C49, parity.** Every variant at every width tells whether the number of one bits is odd. -/
theorem popparity_correct :
    (∀ v : BitVec 8, popparity8Const v = odd v ∧ popparity8Dynamic v = some (odd v)) ∧
    (∀ v : BitVec 16, popparity16Const v = odd v ∧ popparity16Dynamic v = some (odd v)) ∧
    (∀ v : BitVec 32, popparity32Const v = odd v ∧ popparity32Dynamic v = some (odd v)) ∧
    (∀ v : BitVec 64, popparity64Const v = odd v ∧ popparity64Dynamic v = some (odd v)) :=
  ⟨fun v => ⟨par8_const v, par8_dynamic v⟩, fun v => ⟨par16_const v, par16_dynamic v⟩,
   fun v => ⟨par32_const v, par32_dynamic v⟩, fun v => ⟨par64_const v, par64_dynamic v⟩⟩

/-- The specification on a concrete word. -/
example : ones (0xf1#8) = 5 ∧ odd (0xf1#8) = true ∧ popcount64Const 0xffff00000000000f#64 = 20 := by decide

end Bfdev.Popcount

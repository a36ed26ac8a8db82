import Verif.Scan.Lemmas
/-! Property theorems for the bit scans, logarithms, masks, alignment and rotations (C52). -/
set_option linter.unusedSimpArgs false
namespace Bfdev.Scan

/-- **C52, scans.** On every non-zero word find-first-set and find-last-set (generic loops, compiler-backed versions,
and the one-based forms) return the position of the lowest and highest one bit. -/
theorem scans_correct (v : Word) (h : v ≠ 0) :
    IsFirst v (ffsufGeneric v) ∧ IsLast v (flsufGeneric v) ∧
    ffsuf v = some (ffsufGeneric v) ∧ flsuf v = some (flsufGeneric v) ∧
    ffs v = ffsufGeneric v + 1 ∧ fls v = some (flsufGeneric v + 1) ∧
    ffsGeneric v = ffsufGeneric v + 1 ∧ flsGeneric v = flsufGeneric v + 1 ∧
    ctz v = some (ffsufGeneric v) ∧ clz v = some (63 - flsufGeneric v) ∧
    ctzGeneric v = ffsufGeneric v ∧ clzGeneric v = 63 - flsufGeneric v := by
  have hf := ffsufGeneric_first v h
  have hl := flsufGeneric_last v h
  have hlt := hl.lt
  have hc := builtinCtz_some.2 hf
  refine ⟨hf, hl, ffsuf_some.2 hf, flsuf_some.2 hl, ?_, fls_eq hl, ?_, ?_, hc, ?_, ?_, ?_⟩
  · unfold ffs builtinFfs; rw [hc]
  · unfold ffsGeneric; rw [if_neg h]
  · unfold flsGeneric; rw [if_neg h]
  · exact builtinClz_some.2 ⟨by omega, by rwa [show 63 - (63 - flsufGeneric v) = flsufGeneric v by omega]⟩
  · unfold ctzGeneric
    split
    · next e => subst e; exact IsFirst.unique (v := BitVec.allOnes 64) ⟨by decide, fun j hj => by omega⟩ hf
    · rfl
  · unfold clzGeneric
    split
    · next e =>
      subst e
      have := IsLast.unique (v := BitVec.allOnes 64) (i := 63) ⟨by decide, fun j hj => BitVec.getLsbD_of_ge _ _ hj⟩ hl
      omega
    · rfl

/-- **C52, scans of zero.** The one-based scans return 0, the generic counts 64; the unchecked scans and the
compiler-backed counts are undefined. -/
theorem scans_zero : ffs 0 = 0 ∧ fls 0 = some 0 ∧ ffsGeneric 0 = 0 ∧ flsGeneric 0 = 0 ∧ ctzGeneric 0 = 64 ∧ clzGeneric 0 = 64 ∧
    ffsuf 0 = none ∧ flsuf 0 = none ∧ ctz 0 = none ∧ clz 0 = none := by decide

/-- The lowest (highest) zero bit of `v`. -/
def IsFirstZero (v : Word) (i : Nat) : Prop := i < 64 ∧ v.getLsbD i = false ∧ ∀ j, j < i → v.getLsbD j = true
def IsLastZero (v : Word) (i : Nat) : Prop := i < 64 ∧ v.getLsbD i = false ∧ ∀ j, i < j → j < 64 → v.getLsbD j = true

theorem isFirst_not (v : Word) (i : Nat) : IsFirst (~~~v) i ↔ IsFirstZero v i := by
  unfold IsFirst IsFirstZero
  constructor
  · rintro ⟨a, b⟩
    have hi := BitVec.lt_of_getLsbD a
    refine ⟨hi, ?_, fun j hj => ?_⟩
    · simpa [BitVec.getLsbD_not, hi] using a
    · simpa [BitVec.getLsbD_not, show j < 64 by omega] using b j hj
  · rintro ⟨hi, a, b⟩
    refine ⟨by rw [BitVec.getLsbD_not]; simp only [hi, a]; rfl, fun j hj => ?_⟩
    rw [BitVec.getLsbD_not, b j hj]; simp

theorem isLast_not (v : Word) (i : Nat) : IsLast (~~~v) i ↔ IsLastZero v i := by
  unfold IsLast IsLastZero
  constructor
  · rintro ⟨a, b⟩
    have hi := BitVec.lt_of_getLsbD a
    refine ⟨hi, ?_, fun j hj hj' => ?_⟩
    · simpa [BitVec.getLsbD_not, hi] using a
    · simpa [BitVec.getLsbD_not, hj'] using b j hj
  · rintro ⟨hi, a, b⟩
    refine ⟨by rw [BitVec.getLsbD_not]; simp only [hi, a]; rfl, fun j hj => ?_⟩
    rw [BitVec.getLsbD_not]
    by_cases h : j < 64
    · rw [b j hj h]; simp
    · simp [h]

/-- **C52, scans for a zero bit.** -/
theorem zero_scans_correct (v : Word) :
    (∀ i, ffzuf v = some i ↔ IsFirstZero v i) ∧ (∀ i, flzuf v = some i ↔ IsLastZero v i) ∧
    (∀ i, ffz v = i + 1 ↔ IsFirstZero v i) ∧ (∀ i, flz v = some (i + 1) ↔ IsLastZero v i) ∧
    (v = BitVec.allOnes 64 → ffz v = 0 ∧ flz v = some 0 ∧ ffzuf v = none ∧ flzuf v = none) := by
  refine ⟨fun i => ?_, fun i => ?_, fun i => ?_, fun i => ?_, ?_⟩
  · unfold ffzuf; rw [ffsuf_some, isFirst_not]
  · unfold flzuf; rw [flsuf_some, isLast_not]
  · rw [← isFirst_not]
    unfold ffz
    by_cases h : v = BitVec.allOnes 64
    · rw [if_pos h]
      constructor
      · intro h; omega
      · intro hf
        have := (allOnes_not v).2 h
        rw [this] at hf
        have := hf.1; simp at this
    · rw [if_neg h]
      have hn : ~~~v ≠ 0 := fun e => h ((allOnes_not v).1 e)
      obtain ⟨hf, _, _, _, e, _⟩ := scans_correct _ hn
      rw [e]
      constructor
      · intro h; have : ffsufGeneric (~~~v) = i := by omega
        exact this ▸ hf
      · intro h; rw [hf.unique h]
  · rw [← isLast_not]
    unfold flz
    by_cases h : v = BitVec.allOnes 64
    · rw [if_pos h]
      constructor
      · intro h; simp at h
      · intro hf
        have := (allOnes_not v).2 h
        rw [this] at hf
        have := hf.1; simp at this
    · rw [if_neg h]
      have hn : ~~~v ≠ 0 := fun e => h ((allOnes_not v).1 e)
      obtain ⟨_, hf, _, _, _, e, _⟩ := scans_correct _ hn
      rw [e]
      constructor
      · intro h; injection h with h; have : flsufGeneric (~~~v) = i := by omega
        exact this ▸ hf
      · intro h; rw [hf.unique h]
  · rintro rfl; decide

/-- **C68, n-th set bit.** For every word other than all-ones, `ffnsp`/`flnsp` return the position of the set bit of
rank `nr` from below/above, or 64 when there are not that many, and leave the counter reduced by the number of set bits in
the second case. Missing from the full property: the all-ones word, for which see `nth_bit_violated`. -/
theorem nth_bit_partial (v : Word) (nr : Nat) (hn : nr < 2 ^ 32) (hv : v ≠ BitVec.allOnes 64) :
    ffnsp v nr = some (match (setBits v)[nr]? with | some b => (b, 2 ^ 32 - 1) | none => (64, nr - (setBits v).length)) ∧
    flnsp v nr = some (match (setBits v).reverse[nr]? with | some b => (b, 2 ^ 32 - 1) | none => (64, nr - (setBits v).length)) := by
  have hl := setBits_length_le v
  constructor
  · unfold ffnsp
    rw [if_neg hv]
    apply nthLoop_eq ffsuf setBits (fun v h => (setBits_zero_iff v).2 h) _ 65 v nr (by omega) hn
    intro v h
    obtain ⟨b, hb⟩ := exists_first v h
    exact ⟨b, ffsuf_some.2 hb, setBits_first hb⟩
  · unfold flnsp
    rw [if_neg hv]
    have := nthLoop_eq flsuf (fun v => (setBits v).reverse) (fun v h => by rw [(setBits_zero_iff v).2 h]; rfl)
      (fun v h => by
        obtain ⟨b, hb⟩ := exists_last v h
        exact ⟨b, flsuf_some.2 hb, setBits_last hb⟩) 65 v nr (by simp; omega) hn
    rw [this, List.length_reverse]
    cases (setBits v).reverse[nr]? <;> rfl

/-- The same for zero bits, for every word other than zero. -/
theorem nth_zero_partial (v : Word) (nr : Nat) (hn : nr < 2 ^ 32) (hv : v ≠ 0) :
    ffnzp v nr = some (match (setBits (~~~v))[nr]? with | some b => (b, 2 ^ 32 - 1) | none => (64, nr - (setBits (~~~v)).length)) ∧
    flnzp v nr = some (match (setBits (~~~v)).reverse[nr]? with | some b => (b, 2 ^ 32 - 1) | none => (64, nr - (setBits (~~~v)).length)) := by
  unfold ffnzp flnzp
  apply nth_bit_partial _ _ hn
  intro h
  apply hv
  have := congrArg (fun x => ~~~x) h
  simpa using this

/-- **C68 fails** for the all-ones word: `flnsp` counts from the wrong end, and a rank beyond the word is returned as is. -/
theorem nth_bit_violated :
    flnsp (BitVec.allOnes 64) 0 = some (0, 0) ∧ (setBits (BitVec.allOnes 64)).reverse[0]? = some 63 ∧
    ffnsp (BitVec.allOnes 64) 70 = some (70, 70) ∧ (setBits (BitVec.allOnes 64))[70]? = none := by decide +kernel

example : ffnsp 0b1011000#64 2 = some (6, 2 ^ 32 - 1) ∧ flnsp 0b1011000#64 2 = some (3, 2 ^ 32 - 1) ∧ ffnsp 0b101#64 3 = some (64, 1) := by
  decide +kernel

/-! ### Logarithm and powers of two -/

theorem toNat_ne_zero {v : Word} (h : 2 ≤ v.toNat) : v ≠ 0 := by rintro rfl; simp at h

theorem ilog2Chain_last (v : Word) (h : 2 ≤ v.toNat) : ∀ n, (∀ j, n < j → v.getLsbD j = false) → IsLast v (ilog2Chain v n) := by
  have small : (∀ j, 1 < j → v.getLsbD j = false) → IsLast v 1 := by
    intro hj
    refine ⟨?_, hj⟩
    cases h1 : v.getLsbD 1 with
    | true => rfl
    | false =>
      have : v.toNat < 2 ^ 1 := Nat.lt_pow_two_of_testBit _ (fun i hi => by
        rcases Nat.lt_or_eq_of_le hi with h2 | h2
        · exact hj i h2
        · subst h2; exact h1)
      omega
  intro n
  induction n with
  | zero => intro hj; exact small (fun j h => hj j (by omega))
  | succ n ih =>
    intro hj
    cases n with
    | zero => exact small hj
    | succ n =>
      unfold ilog2Chain
      split
      · next hb => exact ⟨hb, hj⟩
      · next hb =>
        apply ih
        intro j hj'
        rcases Nat.lt_or_eq_of_le (Nat.succ_le_of_lt hj') with h2 | h2
        · exact hj j h2
        · rw [← h2]; simpa using hb

/-- **C52, logarithm.** Every variant of the integer logarithm returns the `k` with `2^k ≤ v < 2^(k+1)`, and 0 for `v < 2`. -/
theorem ilog2_correct (v : Word) :
    ∃ k, ilog2Dynamic v = some k ∧ ilog2Const v = k ∧ ilog2Builtin v = some k ∧
      (1 ≤ v.toNat → 2 ^ k ≤ v.toNat ∧ v.toNat < 2 ^ (k + 1)) ∧ (v.toNat = 0 → k = 0) := by
  unfold ilog2Dynamic ilog2Const ilog2Builtin
  by_cases h : v.toNat < 2
  · simp only [if_pos h]
    refine ⟨0, rfl, rfl, rfl, fun h1 => ?_, fun _ => rfl⟩
    simp; omega
  · simp only [if_neg h]
    have h2 : 2 ≤ v.toNat := by omega
    obtain ⟨k, hk⟩ := exists_last v (toNat_ne_zero h2)
    have hlt := hk.lt
    refine ⟨k, ?_, ?_, ?_, fun _ => (isLast_iff_pow v k).1 hk, fun h0 => by omega⟩
    · rw [fls_eq hk]; rfl
    · exact (ilog2Chain_last v h2 63 (fun j hj => BitVec.getLsbD_of_ge _ _ hj)).unique hk
    · rw [(builtinClz_some (n := 63 - k)).2 ⟨by omega, by rwa [show 63 - (63 - k) = k by omega]⟩]
      simp; omega

theorem shl1_some {n : Nat} (h : n < 64) : ∃ r : Word, shl1 n = some r ∧ r.toNat = 2 ^ n := by
  refine ⟨1#64 <<< n, by unfold shl1; rw [if_pos h], ?_⟩
  rw [BitVec.toNat_shiftLeft, Nat.shiftLeft_eq]
  have : 2 ^ n < 2 ^ 64 := Nat.pow_lt_pow_right (by decide) h
  simp only [BitVec.toNat_ofNat]
  rw [show (1 % 2 ^ 64) = 1 by decide, Nat.one_mul, Nat.mod_eq_of_lt this]

/-- **C52, rounding up.** For `1 ≤ v ≤ 2^63` both variants return the least power of two not below `v`. -/
theorem pow2_roundup_correct (v : Word) (h1 : 1 ≤ v.toNat) (h2 : v.toNat ≤ 2 ^ 63) :
    ∃ r k, pow2Roundup v = some r ∧ pow2RoundupConst v = some r ∧ r.toNat = 2 ^ k ∧ v.toNat ≤ 2 ^ k ∧
      ∀ j, v.toNat ≤ 2 ^ j → 2 ^ k ≤ 2 ^ j := by
  unfold pow2Roundup pow2RoundupConst
  by_cases h : v.toNat < 2
  · simp only [if_pos h]
    have : v.toNat = 1 := by omega
    exact ⟨v, 0, rfl, rfl, by simpa using this, by simp; omega, fun j _ => by simp [Nat.one_le_two_pow]⟩
  · simp only [if_neg h]
    have hsub : (v - 1).toNat = v.toNat - 1 := by
      rw [BitVec.toNat_sub]
      have := v.isLt
      show (2 ^ 64 - (1 : Word).toNat + v.toNat) % 2 ^ 64 = _
      have e : (1 : Word).toNat = 1 := by decide
      rw [e]
      omega
    have hne : v - 1 ≠ 0 := by
      intro e
      have := congrArg BitVec.toNat e
      rw [hsub] at this
      simp at this; omega
    obtain ⟨k, hk⟩ := exists_last (v - 1) hne
    have hkp := (isLast_iff_pow _ _).1 hk
    rw [hsub] at hkp
    have hk63 : k < 63 := by
      apply Nat.lt_of_not_le
      intro hle
      have : 2 ^ 63 ≤ 2 ^ k := Nat.pow_le_pow_right (by decide) hle
      omega
    obtain ⟨r, hr, hrn⟩ := shl1_some (n := k + 1) (by omega)
    refine ⟨r, k + 1, by rw [fls_eq hk]; exact hr, ?_, hrn, by omega, ?_⟩
    · obtain ⟨k', _, _, hb, hp, _⟩ := ilog2_correct (v - 1)
      rw [hb]
      have : k' = k := by
        apply IsLast.unique _ hk
        rw [isLast_iff_pow]
        exact hp (by rw [hsub]; omega)
      subst this
      exact hr
    · intro j hj
      apply Nat.pow_le_pow_right (by decide)
      apply Nat.lt_of_not_le
      intro hle
      have : 2 ^ j ≤ 2 ^ k := Nat.pow_le_pow_right (by decide) hle
      omega

/-- Outside that range: zero is returned unchanged, and above `2^63` the shift count is 64, undefined behaviour. -/
theorem pow2_roundup_outside (v : Word) :
    (v.toNat = 0 → pow2Roundup v = some v) ∧ (2 ^ 63 < v.toNat → pow2Roundup v = none ∧ pow2RoundupConst v = none) := by
  refine ⟨fun h => by unfold pow2Roundup; rw [if_pos (by omega)], fun h => ?_⟩
  have hlt := v.isLt
  have hsub : (v - 1).toNat = v.toNat - 1 := by
    rw [BitVec.toNat_sub]
    have e : (1 : Word).toNat = 1 := by decide
    rw [e]
    omega
  have hl : IsLast (v - 1) 63 := by rw [isLast_iff_pow, hsub]; omega
  constructor
  · unfold pow2Roundup
    rw [if_neg (by omega), fls_eq hl]; rfl
  · unfold pow2RoundupConst
    rw [if_neg (by omega)]
    obtain ⟨k', _, _, hb, hp, _⟩ := ilog2_correct (v - 1)
    rw [hb]
    have : k' = 63 := by
      apply IsLast.unique _ hl
      rw [isLast_iff_pow]
      exact hp (by rw [hsub]; omega)
    subst this; rfl

/-- **C52, rounding down.** For every `v ≥ 1` both variants return the greatest power of two not above `v`. -/
theorem pow2_rounddown_correct (v : Word) (h1 : 1 ≤ v.toNat) :
    ∃ r k, pow2Rounddown v = some r ∧ pow2RounddownConst v = some r ∧ r.toNat = 2 ^ k ∧ 2 ^ k ≤ v.toNat ∧
      ∀ j, 2 ^ j ≤ v.toNat → 2 ^ j ≤ 2 ^ k := by
  unfold pow2Rounddown pow2RounddownConst
  by_cases h : v.toNat < 2
  · simp only [if_pos h]
    have : v.toNat = 1 := by omega
    exact ⟨v, 0, rfl, rfl, by simpa using this, by simp; omega, fun j hj => by omega⟩
  · simp only [if_neg h]
    obtain ⟨k, hk⟩ := exists_last v (toNat_ne_zero (by omega))
    have hkp := (isLast_iff_pow _ _).1 hk
    obtain ⟨r, hr, hrn⟩ := shl1_some hk.lt
    refine ⟨r, k, by rw [fls_eq hk]; exact hr, ?_, hrn, hkp.1, ?_⟩
    · obtain ⟨k', _, _, hb, hp, _⟩ := ilog2_correct v
      rw [hb]
      have : k' = k := by
        apply IsLast.unique _ hk
        rw [isLast_iff_pow]
        exact hp h1
      subst this
      exact hr
    · intro j hj
      apply Nat.pow_le_pow_right (by decide)
      apply Nat.le_of_lt_succ
      apply Nat.lt_of_not_le
      intro hle
      have : 2 ^ (k + 1) ≤ 2 ^ j := Nat.pow_le_pow_right (by decide) hle
      omega

example : pow2Roundup 1000#64 = some 1024#64 ∧ pow2Rounddown 1000#64 = some 512#64 ∧ pow2RoundupConst 1024#64 = some 1024#64 := by
  decide +kernel

theorem sub_one_bit {v : Word} {k : Nat} (hk : IsFirst v k) (i : Nat) :
    (v - 1).getLsbD i = if i < k then true else if i = k then false else v.getLsbD i := by
  have hlt := hk.lt
  -- v = 2^k * (2 m + 1)
  have hmod : v.toNat % 2 ^ k = 0 := by
    apply Nat.eq_of_testBit_eq
    intro j
    rw [Nat.testBit_mod_two_pow]
    by_cases hj : j < k
    · have := hk.2 j hj
      unfold BitVec.getLsbD at this
      simp [this]
    · simp [hj]
  have hodd : v.toNat / 2 ^ k % 2 = 1 := by
    have := hk.1
    unfold BitVec.getLsbD at this
    rw [Nat.testBit_eq_decide_div_mod_eq] at this
    simpa using this
  have hpos : 0 < 2 ^ k := Nat.two_pow_pos k
  have hdm := Nat.div_add_mod v.toNat (2 ^ k)
  rw [hmod, Nat.add_zero] at hdm
  obtain ⟨m, hm⟩ : ∃ m, v.toNat / 2 ^ k = 2 * m + 1 := ⟨v.toNat / 2 ^ k / 2, by omega⟩
  rw [hm] at hdm
  have hsub : (v - 1).toNat = v.toNat - 1 := by
    rw [BitVec.toNat_sub]
    have e : (1 : Word).toNat = 1 := by decide
    have := v.isLt
    rw [e]
    have : 1 ≤ v.toNat := by
      rw [← hdm]; exact Nat.mul_pos hpos (by omega)
    omega
  have hval : v.toNat = 2 ^ (k + 1) * m + 2 ^ k := by
    rw [← hdm, Nat.pow_succ, Nat.mul_add, Nat.mul_one, Nat.mul_assoc]
  have hval' : (v - 1).toNat = 2 ^ (k + 1) * m + (2 ^ k - 1) := by rw [hsub, hval]; omega
  have hpk : 2 ^ k < 2 ^ (k + 1) := Nat.pow_lt_pow_right (by decide) (by omega)
  show (v - 1).toNat.testBit i = _
  rw [hval', Nat.testBit_two_pow_mul_add _ (by omega)]
  by_cases h1 : i < k
  · rw [if_pos h1, if_pos (by omega), Nat.testBit_two_pow_sub_one]; simp [h1]
  · rw [if_neg h1]
    by_cases h2 : i = k
    · subst h2; rw [if_pos rfl, if_pos (by omega), Nat.testBit_two_pow_sub_one]; simp
    · rw [if_neg h2, if_neg (by omega)]
      show _ = v.toNat.testBit i
      rw [hval, Nat.testBit_two_pow_mul_add _ hpk, if_neg (by omega)]

/-- **C52, power-of-two test.** It holds exactly for the powers of two. -/
theorem pow2_check_correct (v : Word) : pow2Check v = true ↔ ∃ k, v.toNat = 2 ^ k := by
  unfold pow2Check
  rw [Bool.and_eq_true, bne_iff_ne, beq_iff_eq]
  constructor
  · rintro ⟨h0, h1⟩
    obtain ⟨k, hk⟩ := exists_first v h0
    refine ⟨k, ?_⟩
    apply Nat.eq_of_testBit_eq
    intro i
    show v.getLsbD i = _
    rw [Nat.testBit_two_pow]
    rcases Nat.lt_trichotomy i k with hl | he | hl
    · rw [hk.2 i hl]; simp; omega
    · subst he; rw [hk.1]; simp
    · have := congrArg (fun x => x.getLsbD i) h1
      simp only [BitVec.getLsbD_and, sub_one_bit hk] at this
      rw [if_neg (by omega), if_neg (by omega), Bool.and_self] at this
      rw [this]; simp; omega
  · rintro ⟨k, hk⟩
    have hb : ∀ i, v.getLsbD i = decide (k = i) := by
      intro i; show v.toNat.testBit i = _; rw [hk, Nat.testBit_two_pow]
    have hf : IsFirst v k := ⟨by simp [hb], fun j hj => by rw [hb]; simp; omega⟩
    refine ⟨(ne_zero_iff v).2 ⟨k, hf.1⟩, ?_⟩
    apply BitVec.eq_of_getLsbD_eq
    intro i _
    rw [BitVec.getLsbD_and, sub_one_bit hf, hb]
    by_cases h : k = i
    · subst h; simp
    · simp [h]

/-! ### Alignment -/

theorem pow_sub_one_bit {a : Word} {k : Nat} (ha : a.toNat = 2 ^ k) (i : Nat) : (a - 1).getLsbD i = decide (i < k) := by
  have hb : ∀ i, a.getLsbD i = decide (k = i) := by
    intro i; show a.toNat.testBit i = _; rw [ha, Nat.testBit_two_pow]
  have hf : IsFirst a k := ⟨by simp [hb], fun j hj => by rw [hb]; simp; omega⟩
  rw [sub_one_bit hf, hb]
  by_cases h : i < k
  · simp [h]
  · by_cases h2 : i = k
    · subst h2; simp
    · simp [h, h2]; omega

theorem pow_exp_lt {a : Word} {k : Nat} (ha : a.toNat = 2 ^ k) : k < 64 := by
  apply Nat.lt_of_not_le
  intro h
  have : 2 ^ 64 ≤ 2 ^ k := Nat.pow_le_pow_right (by decide) h
  have := a.isLt
  omega

theorem clear_low (v : Word) {a : Word} {k : Nat} (ha : a.toNat = 2 ^ k) :
    (v &&& ~~~(a - 1)).toNat = v.toNat / 2 ^ k * 2 ^ k := by
  have hk := pow_exp_lt ha
  apply Nat.eq_of_testBit_eq
  intro i
  show (v &&& ~~~(a - 1)).getLsbD i = _
  rw [BitVec.getLsbD_and, BitVec.getLsbD_not, pow_sub_one_bit ha, ← Nat.shiftLeft_eq, Nat.testBit_shiftLeft,
    ← Nat.shiftRight_eq_div_pow, Nat.testBit_shiftRight]
  show (v.getLsbD i && _) = (_ && v.getLsbD (k + (i - k)))
  by_cases h : i < k
  · simp [h, show ¬ i ≥ k by omega]
  · rw [show k + (i - k) = i by omega]
    by_cases h64 : i < 64
    · simp [h64, show i ≥ k by omega]
    · rw [BitVec.getLsbD_of_ge v i (by omega)]; simp

/-- **C69, alignment.** For every power-of-two alignment `2^k`: the test means divisibility, rounding down gives the
greatest multiple not above `v`, and rounding up the least multiple not below `v` whenever `v + 2^k - 1` fits in a word. -/
theorem align_correct (v a : Word) (k : Nat) (ha : a.toNat = 2 ^ k) :
    (alignCheck v a = true ↔ 2 ^ k ∣ v.toNat) ∧
    (2 ^ k ∣ (alignLow v a).toNat ∧ (alignLow v a).toNat ≤ v.toNat ∧ v.toNat < (alignLow v a).toNat + 2 ^ k) ∧
    (v.toNat + 2 ^ k ≤ 2 ^ 64 → 2 ^ k ∣ (alignHigh v a).toNat ∧ v.toNat ≤ (alignHigh v a).toNat ∧
      (alignHigh v a).toNat < v.toNat + 2 ^ k) := by
  have hp : 0 < 2 ^ k := Nat.two_pow_pos k
  refine ⟨?_, ?_, fun hf => ?_⟩
  · unfold alignCheck
    rw [beq_iff_eq]
    have e : (v &&& (a - 1)).toNat = v.toNat % 2 ^ k := by
      apply Nat.eq_of_testBit_eq
      intro i
      show (v &&& (a - 1)).getLsbD i = _
      rw [BitVec.getLsbD_and, pow_sub_one_bit ha, Nat.testBit_mod_two_pow, Bool.and_comm]; rfl
    constructor
    · intro h
      rw [h] at e
      exact Nat.dvd_of_mod_eq_zero e.symm
    · intro h
      apply BitVec.eq_of_toNat_eq
      rw [e, Nat.mod_eq_zero_of_dvd h]; rfl
  · have e : (alignLow v a).toNat = v.toNat / 2 ^ k * 2 ^ k := clear_low v ha
    have := Nat.div_add_mod v.toNat (2 ^ k)
    have := Nat.mod_lt v.toNat hp
    rw [e]
    refine ⟨⟨_, Nat.mul_comm _ _⟩, ?_, ?_⟩
    · rw [Nat.mul_comm]; omega
    · rw [Nat.mul_comm]; omega
  · have e1 : (v + (a - 1)).toNat = v.toNat + (2 ^ k - 1) := by
      have hsub : (a - 1).toNat = 2 ^ k - 1 := by
        rw [BitVec.toNat_sub]
        have e : (1 : Word).toNat = 1 := by decide
        have := a.isLt
        rw [e]; omega
      rw [BitVec.toNat_add, hsub, Nat.mod_eq_of_lt (by omega)]
    have e : (alignHigh v a).toNat = (v.toNat + (2 ^ k - 1)) / 2 ^ k * 2 ^ k := by
      unfold alignHigh; rw [clear_low _ ha, e1]
    have := Nat.div_add_mod (v.toNat + (2 ^ k - 1)) (2 ^ k)
    have := Nat.mod_lt (v.toNat + (2 ^ k - 1)) hp
    rw [e]
    refine ⟨⟨_, Nat.mul_comm _ _⟩, ?_, ?_⟩
    · rw [Nat.mul_comm]; omega
    · rw [Nat.mul_comm]; omega

/-- Near the top of the word rounding up wraps to zero. -/
theorem align_high_wraps : alignHigh 0xfffffffffffffff1#64 16#64 = 0#64 := by decide

example : alignHigh 1001#64 8#64 = 1008#64 ∧ alignLow 1001#64 8#64 = 1000#64 ∧ alignCheck 1008#64 8#64 = true ∧ (8#64).toNat = 2 ^ 3 := by
  decide

/-! ### Masks -/

/-- **C69, masks.** Low masks of 1..64 bits, high masks from bit 0..63, single bits and ranges have exactly the stated one bits. -/
theorem masks_correct :
    (∀ n i, 1 ≤ n → n ≤ 64 → (lowMask n).getLsbD i = decide (i < n)) ∧
    (∀ n i, n < 64 → (highMask n).getLsbD i = decide (n ≤ i ∧ i < 64)) ∧
    (∀ n i, n < 64 → (bit n).getLsbD i = decide (i = n)) ∧
    (∀ hi lo i, hi < 64 → lo < 64 → ∃ r, bitRange hi lo = some r ∧ r.getLsbD i = decide (lo ≤ i ∧ i ≤ hi)) := by
  refine ⟨fun n i h1 h2 => ?_, fun n i h => ?_, fun n i h => ?_, fun hi lo i hh hl => ?_⟩
  · unfold lowMask
    rw [BitVec.getLsbD_ushiftRight, BitVec.getLsbD_allOnes]
    congr 1
    apply propext
    omega
  · unfold highMask
    rw [BitVec.getLsbD_shiftLeft, BitVec.getLsbD_allOnes, Nat.mod_eq_of_lt h]
    by_cases h1 : i < 64 <;> by_cases h2 : i < n <;> simp [h1, h2] <;> omega
  · unfold bit
    rw [BitVec.getLsbD_shiftLeft, BitVec.getLsbD_one, Nat.mod_eq_of_lt h]
    by_cases h1 : i < n
    · simp [h1]; omega
    · by_cases h2 : i = n
      · simp [h2, h]
      · simp [h2, show ¬ i - n = 0 by omega]
  · have e : ∀ lo : Fin 64, BitVec.allOnes 64 - (1#64 <<< lo.val) + 1 = BitVec.allOnes 64 <<< lo.val := by decide
    refine ⟨_, by unfold bitRange; rw [if_pos ⟨hl, hh⟩], ?_⟩
    rw [e ⟨lo, hl⟩, BitVec.getLsbD_and, BitVec.getLsbD_shiftLeft, BitVec.getLsbD_ushiftRight, BitVec.getLsbD_allOnes, BitVec.getLsbD_allOnes]
    simp only
    rw [Bool.eq_iff_iff]
    simp only [Bool.and_eq_true, decide_eq_true_eq, Bool.not_eq_true', decide_eq_false_iff_not]
    omega

/-! ### Rotations -/

/-- **C69, rotations.** Rotating left by `s` moves bit `i` to `(i + s) mod w`; rotating right moves it back. -/
theorem rotate_correct (w : Nat) (v : BitVec w) (s i : Nat) (hi : i < w) :
    (rol w v s).getLsbD ((i + s) % w) = v.getLsbD i ∧ (ror w v s).getLsbD i = v.getLsbD ((i + s) % w) := by
  have hr : s % w < w := Nat.mod_lt _ (by omega)
  have e : (i + s) % w = if i + s % w < w then i + s % w else i + s % w - w := by
    rw [Nat.add_mod, Nat.mod_eq_of_lt hi]
    split
    · next h => exact Nat.mod_eq_of_lt h
    · next h => rw [Nat.mod_eq_sub_mod (by omega), Nat.mod_eq_of_lt (by omega)]
  have em : (w - s % w) % w = if s % w = 0 then 0 else w - s % w := by
    split
    · next h => rw [h]; simp
    · next h => exact Nat.mod_eq_of_lt (by omega)
  unfold rol ror
  rw [e, em]
  generalize s % w = r at *
  constructor
  · rw [BitVec.getLsbD_or, BitVec.getLsbD_shiftLeft, BitVec.getLsbD_ushiftRight]
    by_cases h0 : r = 0
    · subst h0; simp [hi]
    · by_cases h : i + r < w
      · rw [if_pos h, if_neg h0, BitVec.getLsbD_of_ge v (w - r + (i + r)) (by omega), show i + r - r = i by omega]
        simp [h, show ¬ i + r < r by omega]
      · rw [if_neg h, if_neg h0, show w - r + (i + r - w) = i by omega]
        simp [show i + r - w < r by omega]
  · rw [BitVec.getLsbD_or, BitVec.getLsbD_shiftLeft, BitVec.getLsbD_ushiftRight]
    by_cases h0 : r = 0
    · subst h0; simp [hi]
    · by_cases h : i + r < w
      · rw [if_pos h, if_neg h0, show r + i = i + r by omega]
        simp [show i < w - r by omega]
      · rw [if_neg h, if_neg h0, BitVec.getLsbD_of_ge v (r + i) (by omega), show i - (w - r) = i + r - w by omega]
        simp [hi, show ¬ i < w - r by omega]

/-- **C69, rotations invert each other.** -/
theorem rotate_inverse (w : Nat) (v : BitVec w) (s : Nat) : ror w (rol w v s) s = v := by
  apply BitVec.eq_of_getLsbD_eq
  intro i hi
  rw [(rotate_correct w (rol w v s) s i hi).2, (rotate_correct w v s i hi).1]

example : rol 8 0x96#8 3 = 0xb4#8 ∧ ror 8 0xb4#8 11 = 0x96#8 := by decide

end Bfdev.Scan

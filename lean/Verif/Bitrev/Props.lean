import Verif.Bitrev.Model
import Verif.Popcount.Props
/-! Property theorems for bit reversal (C50). -/
namespace Bfdev.Bitrev

/-- Specification: `r` holds the bits of `v` in the opposite order. -/
def IsReversal {w : Nat} (v r : BitVec w) : Prop := ∀ i, i < w → r.getLsbD i = v.getLsbD (w - 1 - i)

theorem IsReversal.unique {w : Nat} {v r s : BitVec w} (h : IsReversal v r) (h' : IsReversal v s) : r = s := by
  apply BitVec.eq_of_getLsbD_eq
  intro i hi
  rw [h i hi, h' i hi]

theorem IsReversal.symm {w : Nat} {v r : BitVec w} (h : IsReversal v r) : IsReversal r v := by
  intro i hi
  rw [h (w - 1 - i) (by omega), show w - 1 - (w - 1 - i) = i by omega]

/-- Where one line of a constant variant takes bit `i` of its result from. -/
theorem term_bit {w : Nat} (v : BitVec w) (t : Nat × Bool × Nat) (i : Nat) (hi : i < w) :
    (term v t).getLsbD i = true ↔ ∃ k, k < w ∧ v.getLsbD k = true ∧ (term (BitVec.twoPow w k) t).getLsbD i = true := by
  obtain ⟨m, d, s⟩ := t
  have key : ∀ j, (v &&& BitVec.ofNat w m).getLsbD j = true ↔
      ∃ k, k < w ∧ v.getLsbD k = true ∧ (BitVec.twoPow w k &&& BitVec.ofNat w m).getLsbD j = true := by
    intro j
    constructor
    · intro h
      rw [BitVec.getLsbD_and, Bool.and_eq_true] at h
      have hj := BitVec.lt_of_getLsbD h.1
      refine ⟨j, hj, h.1, ?_⟩
      rw [BitVec.getLsbD_and, h.2, BitVec.getLsbD_twoPow]
      simp [hj]
    · rintro ⟨k, hk, hv, h⟩
      rw [BitVec.getLsbD_and, BitVec.getLsbD_twoPow] at h
      simp only [Bool.and_eq_true, decide_eq_true_eq] at h
      obtain ⟨⟨_, e⟩, h2⟩ := h
      rw [BitVec.getLsbD_and, ← e, hv, e, h2]; rfl
  unfold term
  simp only
  cases d with
  | true =>
    simp only [if_true, BitVec.getLsbD_shiftLeft, Bool.and_eq_true, decide_eq_true_eq, key]
    constructor
    · rintro ⟨hh, k, hk, hv, hb⟩; exact ⟨k, hk, hv, hh, hb⟩
    · rintro ⟨k, hk, hv, hh, hb⟩; exact ⟨hh, k, hk, hv, hb⟩
  | false =>
    simp only [Bool.false_eq_true, if_false, BitVec.getLsbD_ushiftRight, key]

theorem foldl_or {w : Nat} (f : Nat × Bool × Nat → BitVec w) (ts : List (Nat × Bool × Nat)) (a : BitVec w) (i : Nat) :
    (ts.foldl (fun acc t => acc ||| f t) a).getLsbD i = true ↔ a.getLsbD i = true ∨ ∃ t ∈ ts, (f t).getLsbD i = true := by
  induction ts generalizing a with
  | nil => simp
  | cons t ts ih =>
    rw [List.foldl_cons, ih, BitVec.getLsbD_or, Bool.or_eq_true]
    simp only [List.mem_cons, exists_eq_or_imp, or_assoc]

theorem orTerms_bit {w : Nat} (ts : List (Nat × Bool × Nat)) (v : BitVec w) (i : Nat) (hi : i < w) :
    (orTerms ts v).getLsbD i = true ↔
      ∃ k, k < w ∧ v.getLsbD k = true ∧ (orTerms ts (BitVec.twoPow w k)).getLsbD i = true := by
  have hz : (0 : BitVec w).getLsbD i = false := by simp
  unfold orTerms
  simp only [foldl_or, hz, Bool.false_eq_true, false_or, term_bit v _ i hi]
  constructor
  · rintro ⟨t, ht, k, hk, hv, h⟩; exact ⟨k, hk, hv, t, ht, h⟩
  · rintro ⟨k, hk, hv, t, ht, h⟩; exact ⟨t, ht, k, hk, hv, h⟩

/-- A constant variant that sends bit `k` to bit `dest k` behaves so on every word. -/
theorem orTerms_dest {w : Nat} (ts : List (Nat × Bool × Nat)) (dest : Nat → Nat)
    (hd : ∀ k : Fin w, orTerms ts (BitVec.twoPow w k.val) = BitVec.twoPow w (dest k.val)) (v : BitVec w) (i : Nat) (hi : i < w) :
    (orTerms ts v).getLsbD i = true ↔ ∃ k, k < w ∧ v.getLsbD k = true ∧ dest k = i := by
  rw [orTerms_bit ts v i hi]
  constructor
  · rintro ⟨k, hk, hv, h⟩
    rw [hd ⟨k, hk⟩, BitVec.getLsbD_twoPow] at h
    simp at h
    exact ⟨k, hk, hv, h.2⟩
  · rintro ⟨k, hk, hv, h⟩
    refine ⟨k, hk, hv, ?_⟩
    rw [hd ⟨k, hk⟩, BitVec.getLsbD_twoPow]
    simp [hi, h]

theorem orTerms_rev {w : Nat} (ts : List (Nat × Bool × Nat))
    (hd : ∀ k : Fin w, orTerms ts (BitVec.twoPow w k.val) = BitVec.twoPow w (w - 1 - k.val)) (v : BitVec w) :
    IsReversal v (orTerms ts v) := by
  intro i hi
  rw [Bool.eq_iff_iff, orTerms_dest ts (fun k => w - 1 - k) hd v i hi]
  constructor
  · rintro ⟨k, hk, hv, h⟩
    have : k = w - 1 - i := by omega
    exact this ▸ hv
  · intro h
    exact ⟨w - 1 - i, by omega, h, by omega⟩

/-- **C50, constant variants of 8 and 16 bits.** They reverse every word. -/
theorem bitrev8_const_reverses (v : BitVec 8) : IsReversal v (bitrev8Const v) :=
  orTerms_rev terms8 (by decide +kernel) v
theorem bitrev16_const_reverses (v : BitVec 16) : IsReversal v (bitrev16Const v) :=
  orTerms_rev terms16 (by decide +kernel) v

/-- Destination of bit `k` in the 32-bit constant variant: bits 27 and 28 go to the wrong places. -/
def dest32 (k : Nat) : Nat := if k = 27 then 2 else if k = 28 then 5 else 31 - k
/-- Destination of bit `k` in the 64-bit constant variant: bits 43 and 44 go to the wrong places. -/
def dest64 (k : Nat) : Nat := if k = 43 then 18 else if k = 44 then 21 else 63 - k

theorem dest32_ok : ∀ k : Fin 32, orTerms terms32 (BitVec.twoPow 32 k.val) = BitVec.twoPow 32 (dest32 k.val) := by
  decide +kernel
theorem dest64_ok : ∀ k : Fin 64, orTerms terms64 (BitVec.twoPow 64 k.val) = BitVec.twoPow 64 (dest64 k.val) := by
  decide +kernel

/-- **C50, 32-bit constant variant.** It reverses a word exactly when bits 27 and 28 of the word are clear.
Missing from the full property: words with one of these bits set, on which the code is wrong. -/
theorem bitrev32_const_reverses_partial (v : BitVec 32) :
    IsReversal v (bitrev32Const v) ↔ v.getLsbD 27 = false ∧ v.getLsbD 28 = false := by
  have hb : ∀ i, i < 32 → ((bitrev32Const v).getLsbD i = true ↔ ∃ k, k < 32 ∧ v.getLsbD k = true ∧ dest32 k = i) :=
    fun i hi => orTerms_dest terms32 dest32 dest32_ok v i hi
  constructor
  · intro h
    refine ⟨?_, ?_⟩
    · have h4 := h 4 (by decide)
      cases hv : v.getLsbD 27 with
      | false => rfl
      | true =>
        rw [hv] at h4
        obtain ⟨k, hk, _, hd⟩ := (hb 4 (by decide)).1 h4
        unfold dest32 at hd; split at hd
        · omega
        · split at hd <;> omega
    · have h3 := h 3 (by decide)
      cases hv : v.getLsbD 28 with
      | false => rfl
      | true =>
        rw [hv] at h3
        obtain ⟨k, hk, _, hd⟩ := (hb 3 (by decide)).1 h3
        unfold dest32 at hd; split at hd
        · omega
        · split at hd <;> omega
  · rintro ⟨h27, h28⟩ i hi
    rw [Bool.eq_iff_iff, hb i hi]
    constructor
    · rintro ⟨k, hk, hv, hd⟩
      have n27 : k ≠ 27 := by rintro rfl; rw [h27] at hv; cases hv
      have n28 : k ≠ 28 := by rintro rfl; rw [h28] at hv; cases hv
      unfold dest32 at hd
      rw [if_neg n27, if_neg n28] at hd
      have : k = 32 - 1 - i := by omega
      exact this ▸ hv
    · intro hv
      have n27 : 32 - 1 - i ≠ 27 := by intro e; rw [e] at hv; rw [h27] at hv; cases hv
      have n28 : 32 - 1 - i ≠ 28 := by intro e; rw [e] at hv; rw [h28] at hv; cases hv
      refine ⟨32 - 1 - i, by omega, hv, ?_⟩
      unfold dest32
      rw [if_neg n27, if_neg n28]; omega

/-- **C50, 64-bit constant variant.** It reverses a word exactly when bits 43 and 44 of the word are clear.
Missing from the full property: words with one of these bits set, on which the code is wrong. -/
theorem bitrev64_const_reverses_partial (v : BitVec 64) :
    IsReversal v (bitrev64Const v) ↔ v.getLsbD 43 = false ∧ v.getLsbD 44 = false := by
  have hb : ∀ i, i < 64 → ((bitrev64Const v).getLsbD i = true ↔ ∃ k, k < 64 ∧ v.getLsbD k = true ∧ dest64 k = i) :=
    fun i hi => orTerms_dest terms64 dest64 dest64_ok v i hi
  constructor
  · intro h
    refine ⟨?_, ?_⟩
    · have h4 := h 20 (by decide)
      cases hv : v.getLsbD 43 with
      | false => rfl
      | true =>
        rw [hv] at h4
        obtain ⟨k, hk, _, hd⟩ := (hb 20 (by decide)).1 h4
        unfold dest64 at hd; split at hd
        · omega
        · split at hd <;> omega
    · have h3 := h 19 (by decide)
      cases hv : v.getLsbD 44 with
      | false => rfl
      | true =>
        rw [hv] at h3
        obtain ⟨k, hk, _, hd⟩ := (hb 19 (by decide)).1 h3
        unfold dest64 at hd; split at hd
        · omega
        · split at hd <;> omega
  · rintro ⟨h27, h28⟩ i hi
    rw [Bool.eq_iff_iff, hb i hi]
    constructor
    · rintro ⟨k, hk, hv, hd⟩
      have n27 : k ≠ 43 := by rintro rfl; rw [h27] at hv; cases hv
      have n28 : k ≠ 44 := by rintro rfl; rw [h28] at hv; cases hv
      unfold dest64 at hd
      rw [if_neg n27, if_neg n28] at hd
      have : k = 64 - 1 - i := by omega
      exact this ▸ hv
    · intro hv
      have n27 : 64 - 1 - i ≠ 43 := by intro e; rw [e] at hv; rw [h27] at hv; cases hv
      have n28 : 64 - 1 - i ≠ 44 := by intro e; rw [e] at hv; rw [h28] at hv; cases hv
      refine ⟨64 - 1 - i, by omega, hv, ?_⟩
      unfold dest64
      rw [if_neg n27, if_neg n28]; omega

/-- **C50 fails** for the 32- and 64-bit constant variants: a single bit lands in the wrong place. -/
theorem bitrev_const_violated :
    bitrev32Const 0x08000000#32 = 0x4#32 ∧ ¬ IsReversal (0x08000000#32) (bitrev32Const 0x08000000#32) ∧
    bitrev64Const 0x80000000000#64 = 0x40000#64 ∧ ¬ IsReversal (0x80000000000#64) (bitrev64Const 0x80000000000#64) := by
  refine ⟨by decide +kernel, ?_, by decide +kernel, ?_⟩
  · rw [bitrev32_const_reverses_partial]; decide
  · rw [bitrev64_const_reverses_partial]; decide

/-! ### Table variants -/

theorem rev8_table : ∀ v : BitVec 8, bitrev8Dynamic v = some (bitrev8Const v) := by decide +kernel

theorem rev_join {w : Nat} (v : BitVec (w + w)) (lo hi : BitVec w)
    (hl : IsReversal (v.setWidth w) lo) (hh : IsReversal ((v >>> w).setWidth w) hi) :
    IsReversal v ((lo.setWidth (w + w) <<< w) ||| hi.setWidth (w + w)) := by
  intro i hi'
  rw [BitVec.getLsbD_or, BitVec.getLsbD_shiftLeft, BitVec.getLsbD_setWidth, BitVec.getLsbD_setWidth]
  by_cases h : i < w
  · simp only [hi', h, decide_true, Bool.not_true, Bool.and_false, Bool.false_and, Bool.false_or, Bool.true_and]
    rw [hh i h, BitVec.getLsbD_setWidth, BitVec.getLsbD_ushiftRight]
    rw [show w + (w - 1 - i) = w + w - 1 - i by omega]
    simp [show w - 1 - i < w by omega]
  · have hge : hi.getLsbD i = false := BitVec.getLsbD_of_ge _ _ (by omega)
    have h2 : i - w < w := by omega
    simp only [hi', h, hge, decide_true, decide_false, Bool.not_false, Bool.and_false, Bool.or_false, Bool.true_and,
      show i - w < w + w by omega]
    rw [hl (i - w) h2, BitVec.getLsbD_setWidth, show w - 1 - (i - w) = w + w - 1 - i by omega]
    simp [show w + w - 1 - i < w by omega]

theorem mask_setWidth {w : Nat} (v m : BitVec (w + w)) (hm : ∀ i : Fin w, m.getLsbD i.val = true) :
    (v &&& m).setWidth w = v.setWidth w := by
  apply BitVec.eq_of_getLsbD_eq
  intro i hi
  have := hm ⟨i, hi⟩
  simp only at this
  simp only [BitVec.getLsbD_setWidth, BitVec.getLsbD_and, this, Bool.and_true]

theorem rev16_dynamic (v : BitVec 16) : ∃ r, bitrev16Dynamic v = some r ∧ IsReversal v r := by
  refine ⟨_, by simp only [bitrev16Dynamic, rev8_table]; rfl, ?_⟩
  apply rev_join (w := 8)
  · rw [← mask_setWidth (w := 8) v 0xff (by decide)]; exact bitrev8_const_reverses _
  · exact bitrev8_const_reverses _

theorem rev32_dynamic (v : BitVec 32) : ∃ r, bitrev32Dynamic v = some r ∧ IsReversal v r := by
  obtain ⟨a, ha, ra⟩ := rev16_dynamic ((v &&& 0xffff).setWidth 16)
  obtain ⟨b, hb, rb⟩ := rev16_dynamic ((v >>> 16).setWidth 16)
  refine ⟨_, by simp only [bitrev32Dynamic, ha, hb]; rfl, ?_⟩
  apply rev_join (w := 16)
  · rw [← mask_setWidth (w := 16) v 0xffff (by decide)]; exact ra
  · exact rb

theorem rev64_dynamic (v : BitVec 64) : ∃ r, bitrev64Dynamic v = some r ∧ IsReversal v r := by
  obtain ⟨a, ha, ra⟩ := rev32_dynamic ((v &&& 0xffffffff).setWidth 32)
  obtain ⟨b, hb, rb⟩ := rev32_dynamic ((v >>> 32).setWidth 32)
  refine ⟨_, by simp only [bitrev64Dynamic, ha, hb]; rfl, ?_⟩
  apply rev_join (w := 32)
  · rw [← mask_setWidth (w := 32) v 0xffffffff (by decide)]; exact ra
  · exact rb

/-- **C50, table variants.** At every width they reverse every word and never read outside the table. -/
theorem bitrev_dynamic_reverses :
    (∀ v : BitVec 8, ∃ r, bitrev8Dynamic v = some r ∧ IsReversal v r) ∧
    (∀ v : BitVec 16, ∃ r, bitrev16Dynamic v = some r ∧ IsReversal v r) ∧
    (∀ v : BitVec 32, ∃ r, bitrev32Dynamic v = some r ∧ IsReversal v r) ∧
    (∀ v : BitVec 64, ∃ r, bitrev64Dynamic v = some r ∧ IsReversal v r) :=
  ⟨fun v => ⟨_, rev8_table v, bitrev8_const_reverses v⟩, rev16_dynamic, rev32_dynamic, rev64_dynamic⟩

/-- **C50, involution.** Reversing twice with the table variants restores the word, at every width. -/
theorem bitrev_dynamic_involutive :
    (∀ v : BitVec 8, (bitrev8Dynamic v).bind bitrev8Dynamic = some v) ∧
    (∀ v : BitVec 16, (bitrev16Dynamic v).bind bitrev16Dynamic = some v) ∧
    (∀ v : BitVec 32, (bitrev32Dynamic v).bind bitrev32Dynamic = some v) ∧
    (∀ v : BitVec 64, (bitrev64Dynamic v).bind bitrev64Dynamic = some v) := by
  obtain ⟨d8, d16, d32, d64⟩ := bitrev_dynamic_reverses
  refine ⟨fun v => ?_, fun v => ?_, fun v => ?_, fun v => ?_⟩
  · obtain ⟨r, h, hr⟩ := d8 v
    obtain ⟨s, h', hs⟩ := d8 r
    rw [h, Option.bind_some, h', hs.unique hr.symm]
  · obtain ⟨r, h, hr⟩ := d16 v
    obtain ⟨s, h', hs⟩ := d16 r
    rw [h, Option.bind_some, h', hs.unique hr.symm]
  · obtain ⟨r, h, hr⟩ := d32 v
    obtain ⟨s, h', hs⟩ := d32 r
    rw [h, Option.bind_some, h', hs.unique hr.symm]
  · obtain ⟨r, h, hr⟩ := d64 v
    obtain ⟨s, h', hs⟩ := d64 r
    rw [h, Option.bind_some, h', hs.unique hr.symm]

/-- **C50, agreement.** Where the constant variants are right, both variants return the same word. -/
theorem bitrev_variants_agree_partial :
    (∀ v : BitVec 8, bitrev8Dynamic v = some (bitrev8Const v)) ∧
    (∀ v : BitVec 16, bitrev16Dynamic v = some (bitrev16Const v)) ∧
    (∀ v : BitVec 32, bitrev32Dynamic v = some (bitrev32Const v) ↔ v.getLsbD 27 = false ∧ v.getLsbD 28 = false) ∧
    (∀ v : BitVec 64, bitrev64Dynamic v = some (bitrev64Const v) ↔ v.getLsbD 43 = false ∧ v.getLsbD 44 = false) := by
  refine ⟨rev8_table, fun v => ?_, fun v => ?_, fun v => ?_⟩
  · obtain ⟨r, h, hr⟩ := rev16_dynamic v
    rw [h, hr.unique (bitrev16_const_reverses v)]
  · obtain ⟨r, h, hr⟩ := rev32_dynamic v
    rw [← bitrev32_const_reverses_partial, h]
    constructor
    · intro e; injection e with e; rw [← e]; exact hr
    · intro e; rw [hr.unique e]
  · obtain ⟨r, h, hr⟩ := rev64_dynamic v
    rw [← bitrev64_const_reverses_partial, h]
    constructor
    · intro e; injection e with e; rw [← e]; exact hr
    · intro e; rw [hr.unique e]

example : bitrev32Const 0x12345678#32 = 0x1e6a2c68#32 → False := by decide
example : bitrev16Const 0x1234#16 = 0x2c48#16 ∧ bitrev32Dynamic 0x12345678#32 = some 0x1e6a2c48#32 := by decide +kernel

end Bfdev.Bitrev

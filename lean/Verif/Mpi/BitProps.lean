import Verif.Mpi.BitLemmas
import Verif.Mpi.Props
/-! Properties of the bit operations on big integers (C81). The bits of an integer are those of its magnitude. -/
namespace Bfdev.Mpi
open Bitmap (Mem bitOf)

theorem natAbs_value (o : Mpi) : (value o).natAbs = val o.limbs := by
  unfold value
  split <;> simp

/-! ### C81: and, or, exclusive or -/

/-- `bfdev_mpi_and` leaves the bitwise and of the magnitudes, as a number that is not negative, whatever the new limbs of the block held and
whichever of the objects coincide. -/
theorem and_partial (S : Store) (g : Grant) (j : Nat → Nat) (d a b : Nat) (ha : Wf (S a)) (hb : Wf (S b))
    (hs : min (S a).limbs.length (S b).limbs.length < 2 ^ 26) :
    Yields S g d (min (S a).limbs.length (S b).limbs.length) (and_ S g j d a b) (((value (S a)).natAbs &&& (value (S b)).natAbs : Nat) : Int) := by
  obtain ⟨l, r, e, hp, hg, hv⟩ := mpiAnd_puts (d := d) g j ha hb hs
  unfold and_
  rw [e, natAbs_value, natAbs_value, ← hv]
  exact hp.yields hg (Nat.le_refl _) _ true (fun _ => rfl) _ rfl

/-- `bfdev_mpi_or` leaves the bitwise or of the magnitudes; its `BFDEV_BUG_ON` does not fire. -/
theorem or_partial (S : Store) (g : Grant) (j : Nat → Nat) (d a b : Nat) (ha : Wf (S a)) (hb : Wf (S b))
    (hs : min (S a).limbs.length (S b).limbs.length < 2 ^ 26) :
    Yields S g d (max (S a).limbs.length (S b).limbs.length) (or_ S g j d a b) (((value (S a)).natAbs ||| (value (S b)).natAbs : Nat) : Int) := by
  obtain ⟨l, r, e, hp, hg, hv⟩ := mpiOr_puts (d := d) g j ha hb hs
  unfold or_
  rw [e, natAbs_value, natAbs_value, ← hv]
  exact hp.yields hg (Nat.le_refl _) _ true (fun _ => rfl) _ rfl

/-- `bfdev_mpi_xor` leaves the bitwise exclusive or of the magnitudes. -/
theorem xor_partial (S : Store) (g : Grant) (j : Nat → Nat) (d a b : Nat) (ha : Wf (S a)) (hb : Wf (S b))
    (hs : min (S a).limbs.length (S b).limbs.length < 2 ^ 26) :
    Yields S g d (max (S a).limbs.length (S b).limbs.length) (xor_ S g j d a b) (((value (S a)).natAbs ^^^ (value (S b)).natAbs : Nat) : Int) := by
  obtain ⟨l, r, e, hp, hg, hv⟩ := mpiXor_puts (d := d) g j ha hb hs
  unfold xor_
  rw [e, natAbs_value, natAbs_value, ← hv]
  exact hp.yields hg (Nat.le_refl _) _ true (fun _ => rfl) _ rfl

/-! ### C81: shifts -/

/-- `bfdev_mpi_shli` multiplies by a power of two. -/
theorem shli_partial (S : Store) (g : Grant) (j : Nat → Nat) (d a shift : Nat) (ha : Wf (S a)) (hs : (S a).limbs.length + (shift + 63) / 64 < 2 ^ 26) :
    Yields S g d ((S a).limbs.length + (shift + 63) / 64) (shli S g j d a shift) (value (S a) * 2 ^ shift) := by
  obtain ⟨l, r, e, hp, hg, hv⟩ := mpiShli_puts (d := d) g j ha hs
  unfold shli
  rw [e]
  refine hp.yields hg (Nat.le_refl _) _ (S a).plus (fun cap => store_plus _ _ _ _ _) _ ?_
  unfold value
  rw [hv]
  split <;> simp [Int.neg_mul]

/-- `bfdev_mpi_shri` divides by a power of two, rounding towards zero. -/
theorem shri_partial (S : Store) (g : Grant) (j : Nat → Nat) (d a shift : Nat) (ha : Wf (S a)) (hl : (S a).limbs.length < 2 ^ 26) (hs : shift < 2 ^ 32) :
    Yields S g d (S a).limbs.length (shri S g j d a shift) ((value (S a)).tdiv (2 ^ shift)) := by
  obtain ⟨l, r, e, hp, hg, hv⟩ := mpiShri_puts (d := d) g j ha hl hs
  unfold shri
  rw [e]
  refine hp.yields hg (Nat.le_refl _) _ (S a).plus (fun cap => store_plus _ _ _ _ _) _ ?_
  unfold value
  rw [hv]
  split
  · rw [Int.tdiv_eq_ediv_of_nonneg (by omega)]; simp
  · rw [Int.neg_tdiv, Int.tdiv_eq_ediv_of_nonneg (by omega)]; simp

/-! ### C81: single bits -/

/-- `bfdev_mpi_btesti` tells bit `bit` of the magnitude. -/
theorem btesti_partial (o : Mpi) (bit : Nat) (ho : Wf o) (hb : bit < 2 ^ 32 ∨ o.limbs.length ≤ 2 ^ 26) : btesti o bit = some ((value o).natAbs.testBit bit) := by
  unfold btesti
  rw [natAbs_value]
  by_cases c : bit / 64 ≥ o.limbs.length
  · rw [if_pos c, val_testBit_ge ho.words (by omega)]
  · rw [if_neg c, Nat.mod_eq_of_lt (by omega)]
    rw [(Bitmap.single_bits (m := toWords o.limbs) (a := 0) (b := bit) (by rw [toWords_length]; omega)).2.2.2]
    rw [bitOf_limbs (k := o.limbs.length) (fun q _ => by rw [Nat.zero_add]) (Nat.le_refl _) ho.words (by omega)]

theorem val_zeros (n : Nat) : val (List.replicate n 0) = 0 := by
  induction n with
  | zero => rfl
  | succ n ih => rw [List.replicate_succ, val, ih]; rfl

theorem limbs_zeros (n : Nat) : Limbs (List.replicate n 0) := by
  intro x hx; rw [(List.mem_replicate.1 hx).2]; decide

theorem ofWords_all (m : Mem) : Limbs (ofWords m) ∧ (ofWords m).length = m.length ∧ ∀ i, (val (ofWords m)).testBit i = (decide (i < 64 * m.length) && bitOf m 0 i) := by
  have h := ofWords_take (m := m) (Nat.le_refl _)
  rw [List.take_length] at h
  exact h

/-- The set bit of a number. -/
theorem testBit_setBit (v b i : Nat) : (v ||| 2 ^ b).testBit i = (decide (i = b) || v.testBit i) := by
  rw [Nat.testBit_or, Nat.testBit_two_pow]
  by_cases c : i = b
  · simp [c]
  · simp [c, show ¬ b = i from fun h => c h.symm]

/-- What setting a bit does once the object has the limb that holds it. -/
theorem setBit_limbs {l : List Nat} {bit : Nat} (hl : Limbs l) (hb : bit / 64 < l.length) :
    ∃ m, Bitmap.bitSet (toWords l) 0 bit = some m ∧ Limbs (ofWords m) ∧ (ofWords m).length = l.length ∧ val (ofWords m) = val l ||| 2 ^ bit := by
  obtain ⟨⟨m, e, hm, hg⟩, -⟩ := Bitmap.single_bits (m := toWords l) (a := 0) (b := bit) (by rw [toWords_length]; omega)
  obtain ⟨h1, h2, h3⟩ := ofWords_all m
  rw [hm, toWords_length] at h2 h3
  refine ⟨m, e, h1, h2, val_of_bits fun i => ?_⟩
  rw [h3, hg, testBit_setBit]
  by_cases c : i < 64 * l.length
  · by_cases ci : i = bit
    · simp [ci]; omega
    · rw [if_neg (by omega), bitOf_limbs (k := l.length) (fun q _ => by rw [Nat.zero_add]) (Nat.le_refl _) hl c]
      simp [c, ci]
  · rw [val_testBit_ge hl (by omega)]
    simp [c, show i ≠ bit by omega]

theorem top_of_ge {l : List Nat} (hl : Limbs l) (h : W64 ^ (l.length - 1) ≤ val l) : l.getLast? ≠ some 0 := by
  intro h0
  have hne : l ≠ [] := by intro h; rw [h] at h0; cases h0
  obtain ⟨l', rfl⟩ : ∃ l', l = l' ++ [0] := by
    refine ⟨l.dropLast, ?_⟩
    rw [List.getLast?_eq_some_getLast hne] at h0
    rw [← Option.some.inj h0, List.dropLast_concat_getLast]
  rw [val_concat_zero] at h
  have := val_lt (l := l') (fun x hx => hl x (List.mem_append_left _ hx))
  have e : (l' ++ [0]).length - 1 = l'.length := by simp
  rw [e] at h
  omega

/-- `bfdev_mpi_bseti` sets bit `bit` of the magnitude and keeps the sign. -/
theorem bseti_partial (S : Store) (g : Grant) (d bit : Nat) (hd : Wf (S d)) (hb : bit < 2 ^ 32) :
    Yields S g d (bit / 64 + 1) (bseti S g d bit)
      (if (S d).plus then (((value (S d)).natAbs ||| 2 ^ bit : Nat) : Int) else -(((value (S d)).natAbs ||| 2 ^ bit : Nat) : Int)) := by
  rw [natAbs_value]
  unfold bseti mpiExtend
  rw [Nat.mod_eq_of_lt hb]
  by_cases c : (S d).limbs.length ≥ bit / 64 + 1
  · simp only [if_pos c, ne_eq, not_true_eq_false, if_false]
    obtain ⟨m, e, h1, h2, h3⟩ := setBit_limbs hd.words (show bit / 64 < (S d).limbs.length by omega)
    rw [e]
    refine ⟨_, _, rfl, fun i hi => store_ne hi, Or.inl ⟨rfl, ?_, ?_⟩, fun _ _ => rfl⟩
    · rw [store_self]
      refine ⟨h1, top_of_ge h1 ?_, by rw [show (Mpi.mk (ofWords m) (S d).cap (S d).plus).limbs = ofWords m from rfl, h2]; exact hd.room⟩
      dsimp only
      rw [h2, h3]
      exact Nat.le_trans (val_ge hd.top (by intro h; rw [h] at c; simp at c)) Nat.left_le_or
    · rw [store_self]; unfold value; rw [h3]
  · simp only [if_neg c]
    cases e : fit (S d) (g.obj d) (bit / 64 + 1) with
    | none =>
      refine ⟨_, _, rfl, fun _ _ => rfl, Or.inr ⟨rfl, rfl⟩, fun c1 c2 => ?_⟩
      obtain ⟨r, hr⟩ := fit_some (o := S d) (Or.inr ⟨c1, c2⟩); rw [e] at hr; cases hr
    | some r =>
      obtain ⟨cap, mv⟩ := r
      simp only [ne_eq, not_true_eq_false, if_false]
      rw [store_self]
      dsimp only
      have hl : ((S d).limbs ++ List.replicate (bit / 64 + 1 - (S d).limbs.length) 0).length = bit / 64 + 1 := by simp; omega
      obtain ⟨m, e', h1, h2, h3⟩ := setBit_limbs (l := (S d).limbs ++ List.replicate (bit / 64 + 1 - (S d).limbs.length) 0)
        (hd.words.append (limbs_zeros _)) (show bit / 64 < _ by rw [hl]; omega)
      rw [val_append, val_zeros, Nat.mul_zero, Nat.add_zero] at h3
      rw [hl] at h2
      rw [e']
      refine ⟨_, _, rfl, fun i hi => by rw [store_ne hi, store_ne hi], Or.inl ⟨rfl, ?_, ?_⟩, fun _ _ => rfl⟩
      · rw [store_self, store_plus]
        refine ⟨h1, top_of_ge h1 ?_, ?_⟩
        · dsimp only
          rw [h2, h3, show bit / 64 + 1 - 1 = bit / 64 by omega]
          refine Nat.le_trans ?_ (Nat.right_le_or (m := 2 ^ bit))
          rw [show W64 = 2 ^ 64 from rfl, ← Nat.pow_mul]
          exact Nat.pow_le_pow_right (by decide) (by omega)
        · dsimp only
          rw [h2]
          exact (fit_ok e).1
      · rw [store_self, store_plus]; unfold value; rw [h3]

/-- `bfdev_mpi_bclri` clears bit `bit` of the magnitude and keeps the sign; it never needs memory. -/
theorem bclri_partial (S : Store) (d bit : Nat) (hd : Wf (S d)) (hb : bit < 2 ^ 32 ∨ (S d).limbs.length ≤ 2 ^ 26) :
    ∃ S', bclri S d bit = some (S', .ok) ∧ (∀ i, i ≠ d → S' i = S i) ∧ Wf (S' d) ∧ (S' d).plus = (S d).plus ∧
      ∀ i, (value (S' d)).natAbs.testBit i = (decide (i ≠ bit) && (value (S d)).natAbs.testBit i) := by
  unfold bclri
  by_cases c : bit / 64 ≥ (S d).limbs.length
  · rw [if_pos c]
    refine ⟨S, rfl, fun _ _ => rfl, hd, rfl, fun i => ?_⟩
    rw [natAbs_value]
    by_cases ci : i = bit
    · subst ci; rw [val_testBit_ge hd.words (by omega)]; simp
    · simp [ci]
  · rw [if_neg c, Nat.mod_eq_of_lt (by omega)]
    obtain ⟨-, ⟨m, e, hm, hg⟩, -⟩ := Bitmap.single_bits (m := toWords (S d).limbs) (a := 0) (b := bit) (by rw [toWords_length]; omega)
    obtain ⟨h1, h2, h3⟩ := ofWords_all m
    rw [hm, toWords_length] at h2 h3
    have hs := good_strip h1 (Nat.le_of_eq h2)
    rw [e]
    refine ⟨_, rfl, fun i hi => store_ne hi, ?_, by rw [store_self], fun i => ?_⟩
    · rw [store_self]
      exact ⟨hs.words, hs.top, Nat.le_trans hs.len hd.room⟩
    · rw [natAbs_value, natAbs_value, store_self]
      dsimp only
      rw [(strip_facts _).1, h3, hg]
      by_cases cl : i < 64 * (S d).limbs.length
      · by_cases ci : i = bit
        · simp [ci]
        · rw [if_neg (by omega), bitOf_limbs (k := (S d).limbs.length) (fun q _ => by rw [Nat.zero_add]) (Nat.le_refl _) hd.words cl]
          simp [cl, ci]
      · rw [val_testBit_ge hd.words (by omega)]; simp [cl]

/-- The limbs that `bfdev_mpi_data` hands out, at least one, and the sign give back the number: importing them makes an equal object. -/
theorem data_import (S : Store) (g : Grant) (d : Nat) (o : Mpi) (ho : Wf o) :
    0 < (data o).1.length ∧ Yields S g d (data o).1.length (some (import_ S g d (data o).1 (data o).2)) (value o) := by
  unfold data
  by_cases c : o.limbs.length = 0
  · rw [if_pos c]
    refine ⟨by simp, ?_⟩
    have := import_correct S g d [0] o.plus (by intro x hx; rw [List.mem_singleton.1 hx]; decide)
    rw [show value o = (if o.plus then (val [0] : Int) else -(val [0] : Int)) by unfold value; rw [List.length_eq_zero_iff.1 c]; rfl]
    exact this
  · rw [if_neg c]
    exact ⟨by dsimp only; omega, import_correct S g d o.limbs o.plus ho.words⟩

/-! ### Disagreements -/

/-- Disagreement: `bfdev_mpi_shri` hands the distance on as a 32-bit number, so shifting right by 2^32 leaves the number as it is. -/
theorem shri_violated : ∃ S', shri (fun _ => ⟨[5], 1, true⟩) generous (fun _ => 0) 0 1 (2 ^ 32) = some (S', .ok) ∧ value (S' 0) = 5 ∧
    (5 : Int).tdiv (2 ^ 32) = 0 := by
  refine ⟨_, rfl, ?_, ?_⟩ <;> decide +kernel

/-- Disagreement: `bfdev_mpi_shli` rounds the distance up to limbs in 64 bits, so shifting left by 2^64 - 1 asks for no limb, reports success and
leaves zero. -/
theorem shli_violated : ∃ S', shli (fun _ => ⟨[5], 1, true⟩) generous (fun _ => 0) 0 1 (2 ^ 64 - 1) = some (S', .ok) ∧ value (S' 0) = 0 := by
  refine ⟨_, rfl, ?_⟩; decide +kernel

/-- Disagreement: `bfdev_bit_set` takes a 32-bit number, so setting bit 2^32 of zero sets bit 0 instead, and leaves leading zero limbs. -/
theorem bseti_violated : ∃ S', bseti (fun _ => init) generous 0 (2 ^ 32) = some (S', .ok) ∧ value (S' 0) = 1 ∧ (S' 0).limbs.length = 2 ^ 26 + 1 := by
  unfold bseti mpiExtend
  rw [if_neg (show ¬ init.limbs.length ≥ 2 ^ 32 / 64 + 1 by decide)]
  obtain ⟨r, hr⟩ := fit_some (o := init) (g := generous.obj 0) (n := 2 ^ 32 / 64 + 1) (Or.inr (by decide))
  obtain ⟨cap, mv⟩ := r
  rw [hr]
  simp only [ne_eq, not_true_eq_false, if_false]
  rw [store_self, show 2 ^ 32 % 2 ^ 32 = 0 from rfl]
  generalize hk : 2 ^ 32 / 64 + 1 - init.limbs.length = k
  have hk' : k = 2 ^ 26 + 1 := hk.symm.trans (by decide)
  obtain ⟨m, e, h1, h2, h3⟩ := setBit_limbs (l := List.replicate k 0) (bit := 0) (limbs_zeros k) (by rw [List.length_replicate]; omega)
  rw [val_zeros] at h3
  rw [show init.limbs ++ List.replicate k 0 = List.replicate k 0 from rfl]
  dsimp only
  rw [e]
  refine ⟨_, rfl, ?_, ?_⟩
  · rw [store_self, store_plus]; unfold value; dsimp only; rw [h3]; rfl
  · rw [store_self]; dsimp only; rw [h2, List.length_replicate, hk']

/-! ### Concrete cases -/

/-- Two numbers and a fresh object. -/
def bitStore : Store := fun i => if i = 1 then ⟨[0xf0f0, 3, 1], 4, false⟩ else if i = 2 then ⟨[0xff00, 6], 4, true⟩ else init

example : Wf (bitStore 1) ∧ Wf (bitStore 2) ∧ value (bitStore 2) = 6 * 2 ^ 64 + 0xff00 := by decide +kernel
example : ∃ S', and_ bitStore generous (fun _ => 7) 0 1 2 = some (S', .ok) ∧ (S' 0).limbs = [0xf000, 2] := ⟨_, rfl, by decide +kernel⟩
example : ∃ S', or_ bitStore generous (fun _ => 7) 1 1 2 = some (S', .ok) ∧ (S' 1).limbs = [0xfff0, 7, 1] ∧ (S' 1).plus = true := ⟨_, rfl, by decide +kernel⟩
example : ∃ S', xor_ bitStore generous (fun _ => 7) 2 1 2 = some (S', .ok) ∧ (S' 2).limbs = [0x0ff0, 5, 1] := ⟨_, rfl, by decide +kernel⟩
example : ∃ S', xor_ bitStore generous (fun _ => 7) 2 2 2 = some (S', .ok) ∧ (S' 2).limbs = [] := ⟨_, rfl, by decide +kernel⟩
example : ∃ S', shli bitStore generous (fun _ => 7) 1 1 68 = some (S', .ok) ∧ (S' 1).limbs = [0, 0xf0f00, 48, 16] ∧ (S' 1).plus = false := ⟨_, rfl, by decide +kernel⟩
example : ∃ S', shri bitStore generous (fun _ => 7) 0 1 65 = some (S', .ok) ∧ (S' 0).limbs = [1 + 2 ^ 63] ∧ (S' 0).plus = false := ⟨_, rfl, by decide +kernel⟩
example : ∃ S', bseti bitStore generous 2 130 = some (S', .ok) ∧ (S' 2).limbs = [0xff00, 6, 4] := ⟨_, rfl, by decide +kernel⟩
example : ∃ S', bclri bitStore 1 128 = some (S', .ok) ∧ (S' 1).limbs = [0xf0f0, 3] := ⟨_, rfl, by decide +kernel⟩
example : btesti (bitStore 1) 65 = some true ∧ btesti (bitStore 1) 66 = some false ∧ btesti (bitStore 1) 1000 = some false := by decide +kernel

end Bfdev.Mpi

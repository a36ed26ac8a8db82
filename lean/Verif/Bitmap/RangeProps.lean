import Verif.Bitmap.LogicProps
/-!
C47: setting and clearing a range of bits.
-/
set_option linter.unusedSimpArgs false
namespace Bfdev.Bitmap
open Bfdev.Scan (Word lowMask highMask bit)

/-- Bits `start ..< start + bits` of the bitmap at word `a` became `v`; every other bit of memory is unchanged. -/
def RangeSet (m m' : Mem) (a start bits : Nat) (v : Bool) : Prop :=
  m'.length = m.length ∧ ∀ k, bitOf m' 0 k = if 64 * a + start ≤ k ∧ k < 64 * a + start + bits then v else bitOf m 0 k

theorem range_loop {f : Word → Word → Word} {v : Bool} (hf : ∀ w k j, j < 64 → (f w k).getLsbD j = if k.getLsbD j then v else w.getLsbD j) :
    ∀ (k fuel : Nat) (m : Mem) (curr bits step : Nat) (mask : Word), k < fuel → 1 ≤ step → step ≤ 64 → bits = step + 64 * k → bits < 2 ^ 32 →
    curr + k < m.length → (∀ j, mask.getLsbD j = decide (64 - step ≤ j ∧ j < 64)) →
    ∃ m1 c1 r1 k1, rangeLoop f fuel m curr bits step mask = some (m1, c1, r1, k1) ∧ r1 ≠ 0 ∧ c1 < m1.length ∧
      RangeSet m (m1.set c1 (f (m1[c1]?.getD 0) k1)) curr (64 - step) bits v := by
  intro k
  induction k with
  | zero =>
    intro fuel m curr bits step mask hk h1 h2 hb hlt hc hm
    obtain ⟨fuel, rfl⟩ : ∃ n, fuel = n + 1 := ⟨fuel - 1, by omega⟩
    refine ⟨m, curr, bits, mask, ?_, by omega, by omega, by simp, fun k => ?_⟩
    · unfold rangeLoop
      rw [if_neg (by omega)]
    · rw [bitOf_set _ (by omega)]
      by_cases hk : k / 64 = curr
      · rw [if_pos hk, hf _ _ _ (Nat.mod_lt _ (by omega)), hm]
        have e : (m[curr]?.getD 0).getLsbD (k % 64) = bitOf m 0 k := by unfold bitOf; rw [Nat.zero_add, hk]
        rw [e]
        simp only [decide_eq_true_eq]
        congr 1
        apply propext
        omega
      · rw [if_neg hk, if_neg (by omega)]
  | succ k ih =>
    intro fuel m curr bits step mask hk h1 h2 hb hlt hc hm
    obtain ⟨fuel, rfl⟩ : ∃ n, fuel = n + 1 := ⟨fuel - 1, by omega⟩
    have e1 : (bits + (2 ^ 32 - step)) % 2 ^ 32 = 64 + 64 * k := by omega
    obtain ⟨m1, c1, r1, k1, e, hr, hc1, hl, hs⟩ := ih fuel (m.set curr (f (m[curr]?.getD 0) mask)) (curr + 1) (64 + 64 * k) 64 (BitVec.allOnes 64)
      (by omega) (by omega) (by omega) rfl (by omega) (by simp; omega) (fun j => by rw [BitVec.getLsbD_allOnes]; rw [decide_eq_decide]; omega)
    refine ⟨m1, c1, r1, k1, ?_, hr, hc1, by rw [hl]; simp, fun x => ?_⟩
    · unfold rangeLoop
      rw [e1, if_pos (by omega), rd_some (by omega)]
      simp only [bind, Option.bind]
      rw [wr_some _ (by omega)]
      exact e
    · rw [hs x]
      by_cases hx : 64 * (curr + 1) + (64 - 64) ≤ x ∧ x < 64 * (curr + 1) + (64 - 64) + (64 + 64 * k)
      · rw [if_pos hx, if_pos (by omega)]
      · rw [if_neg hx, bitOf_set _ (by omega)]
        by_cases hk : x / 64 = curr
        · rw [if_pos hk, hf _ _ _ (Nat.mod_lt _ (by omega)), hm]
          have e : (m[curr]?.getD 0).getLsbD (x % 64) = bitOf m 0 x := by unfold bitOf; rw [Nat.zero_add, hk]
          rw [e]
          simp only [decide_eq_true_eq]
          congr 1
          apply propext
          omega
        · rw [if_neg hk, if_neg (by omega)]

theorem compRange_eq {f : Word → Word → Word} {v : Bool} (hf : ∀ w k j, j < 64 → (f w k).getLsbD j = if k.getLsbD j then v else w.getLsbD j)
    {m : Mem} {a start bits : Nat} (hb : 0 < bits) (hlt : bits < 2 ^ 32) (he : (start + bits) % 64 = 0) (hin : Inside m a (start + bits)) :
    ∃ m', compRange f m a start bits = some m' ∧ RangeSet m m' a start bits v := by
  unfold Inside words at hin
  obtain ⟨m1, c1, r1, k1, e, hr, hc1, hl, hs⟩ := range_loop hf ((start % 64 + bits - 64) / 64) (m.length + 1) m (a + start / 64) bits (64 - start % 64)
    (highMask start) (by omega) (by omega) (by omega) (by omega) hlt (by omega) (fun j => by rw [highMask_bit]; rw [decide_eq_decide]; omega)
  refine ⟨_, ?_, hl, fun k => (hs k).trans ?_⟩
  · unfold compRange
    rw [e]
    simp only [bind, Option.bind]
    rw [if_pos hr, rd_some hc1, lowMask_full _ he, BitVec.and_allOnes]
    exact wr_some _ hc1
  · congr 1
    apply propext
    omega

theorem range_runs_off {f : Word → Word → Word} : ∀ (fuel : Nat) (m : Mem) (curr bits step : Nat) (mask : Word), step ≤ 64 →
    (bits + (2 ^ 32 - step)) % 64 ≠ 0 → rangeLoop f fuel m curr bits step mask = none := by
  intro fuel
  induction fuel with
  | zero => intros; rfl
  | succ fuel ih =>
    intro m curr bits step mask hs h
    unfold rangeLoop
    rw [if_pos (by omega)]
    cases hr : rd m curr with
    | none => rfl
    | some w =>
      simp only [bind, Option.bind]
      cases hw : wr m curr (f w mask) with
      | none => rfl
      | some m' => exact ih _ _ _ _ _ (Nat.le_refl _) (by omega)

theorem set_bit (w k : Word) (j : Nat) (_ : j < 64) : (w ||| k).getLsbD j = if k.getLsbD j then true else w.getLsbD j := by
  rw [BitVec.getLsbD_or]; cases k.getLsbD j <;> simp
theorem clr_bit (w k : Word) (j : Nat) (hj : j < 64) : (w &&& ~~~k).getLsbD j = if k.getLsbD j then false else w.getLsbD j := by
  rw [BitVec.getLsbD_and, BitVec.getLsbD_not]; cases k.getLsbD j <;> simp [hj]

/-- C47: setting and clearing a range work when the range is not empty and ends at a word boundary. Missing: other ranges, for
which the claim is false (`range_fails`). -/
theorem bitmap_range_partial {m : Mem} {a start bits : Nat} (hb : 0 < bits) (hlt : bits < 2 ^ 32) (he : (start + bits) % 64 = 0)
    (hin : Inside m a (start + bits)) :
    (∃ m', compSet m a start bits = some m' ∧ RangeSet m m' a start bits true) ∧
    (∃ m', compClr m a start bits = some m' ∧ RangeSet m m' a start bits false) :=
  ⟨compRange_eq set_bit hb hlt he hin, compRange_eq clr_bit hb hlt he hin⟩

/-- Disagreement: for every other range end the functions run past the end of memory, whatever the size of the memory. -/
theorem range_fails {m : Mem} {a start bits : Nat} (he : (start + bits) % 64 ≠ 0) :
    compSet m a start bits = none ∧ compClr m a start bits = none := by
  unfold compSet compClr compRange
  rw [range_runs_off _ _ _ _ _ _ (by omega) (by omega), range_runs_off _ _ _ _ _ _ (by omega) (by omega)]
  exact ⟨rfl, rfl⟩

theorem range_zero_off {f : Word → Word → Word} : ∀ (fuel : Nat) (m : Mem) (curr bits : Nat) (mask : Word),
    64 * (fuel + 1) ≤ bits → bits < 2 ^ 32 → rangeLoop f fuel m curr bits 64 mask = none := by
  intro fuel
  induction fuel with
  | zero => intros; rfl
  | succ fuel ih =>
    intro m curr bits mask h h2
    unfold rangeLoop
    rw [if_pos (by omega)]
    cases hr : rd m curr with
    | none => rfl
    | some w =>
      simp only [bind, Option.bind]
      cases hw : wr m curr (f w mask) with
      | none => rfl
      | some m' => exact ih _ _ _ _ (by omega) (by omega)

/-- Disagreement: setting or clearing no bits at all at a word boundary runs past the end of memory, unless half a gibibyte of memory is there. -/
theorem range_zero_fails {m : Mem} {a start : Nat} (hs : start % 64 = 0) (hm : m.length + 2 < 2 ^ 26) :
    compSet m a start 0 = none ∧ compClr m a start 0 = none := by
  have key : ∀ f : Word → Word → Word, compRange f m a start 0 = none := by
    intro f
    unfold compRange
    rw [hs]
    have : rangeLoop f (m.length + 1) m (a + start / 64) 0 (64 - 0) (highMask start) = none := by
      unfold rangeLoop
      rw [if_pos (by omega)]
      cases hr : rd m (a + start / 64) with
      | none => rfl
      | some w =>
        simp only [bind, Option.bind]
        cases hw : wr m (a + start / 64) (f w (highMask start)) with
        | none => rfl
        | some m' => exact range_zero_off _ _ _ _ _ (by omega) (by omega)
    rw [this]
    rfl
  exact ⟨key _, key _⟩

/-- C47: the inline entry points, for counts known to be 1, and for starts and counts known to be multiples of 8. -/
theorem bitmap_range_const {m : Mem} {a start bits : Nat} (cs cb : Bool) (h : cb = true)
    (hc : bits = 1 ∨ (cs = true ∧ start % 8 = 0 ∧ bits % 8 = 0)) (hin : Inside m a (start + bits)) :
    (∃ m', bmSet cs cb m a start bits = some m' ∧ RangeSet m m' a start bits true) ∧
    (∃ m', bmClr cs cb m a start bits = some m' ∧ RangeSet m m' a start bits false) := by
  subst h
  unfold Inside words at hin
  unfold bmSet bmClr
  by_cases h1 : bits = 1
  · subst h1
    obtain ⟨⟨m1, e1, l1, s1⟩, ⟨m2, e2, l2, s2⟩, -⟩ := single_bits (m := m) (a := a) (b := start) (by omega)
    rw [if_pos (by decide), if_pos (by decide)]
    refine ⟨⟨m1, e1, l1, fun k => (s1 k).trans ?_⟩, ⟨m2, e2, l2, fun k => (s2 k).trans ?_⟩⟩ <;>
    · congr 1
      apply propext
      omega
  · obtain ⟨rfl, h2, h3⟩ := hc.resolve_left h1
    rw [if_neg (by simp [h1]), if_neg (by simp [constAligned, h2, h3]), if_neg (by simp [h1]), if_neg (by simp [constAligned, h2, h3])]
    obtain ⟨m1, e1, l1, s1⟩ := memset_some (bits / 8) m (8 * a + start / 8) 0xff (by omega)
    obtain ⟨m2, e2, l2, s2⟩ := memset_some (bits / 8) m (8 * a + start / 8) 0 (by omega)
    have ff : ∀ i, i < 8 → (0xff : BitVec 8).getLsbD i = true := by decide
    refine ⟨⟨m1, e1, l1, fun k => (s1 k).trans ?_⟩, ⟨m2, e2, l2, fun k => (s2 k).trans ?_⟩⟩
    · rw [ff _ (Nat.mod_lt _ (by omega))]
      congr 1
      apply propext
      omega
    · rw [show (0 : BitVec 8).getLsbD (k % 8) = false by simp]
      congr 1
      apply propext
      omega

/-- For values unknown to the compiler the inline forms are the out-of-line functions. -/
theorem bitmap_range_call {m : Mem} {a start bits : Nat} : bmSet false false m a start bits = compSet m a start bits ∧
    bmClr false false m a start bits = compClr m a start bits := ⟨rfl, rfl⟩

example : compSet [0#64, 0#64, 5#64] 0 60 68 = some [0xf000000000000000#64, BitVec.allOnes 64, 5#64] ∧ (60 + 68) % 64 = 0 := by decide +kernel
example : compSet [0#64, 0#64, 0#64] 0 3 4 = none := (range_fails (by decide)).1
example : ∃ m', bmClr true true [BitVec.allOnes 64] 0 8 16 = some m' ∧ RangeSet [BitVec.allOnes 64] m' 0 8 16 false :=
  (bitmap_range_const true true rfl (Or.inr ⟨rfl, rfl, rfl⟩) (by unfold Inside; decide)).2

end Bfdev.Bitmap

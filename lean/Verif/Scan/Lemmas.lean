import Verif.Scan.Model
import Verif.Scan.Spec
/-! Helper lemmas for the bit scans. -/
set_option linter.unusedSimpArgs false
namespace Bfdev.Scan

theorem IsFirst.unique {w : Nat} {v : BitVec w} {i j : Nat} (h : IsFirst v i) (h' : IsFirst v j) : i = j := by
  rcases Nat.lt_trichotomy i j with hl | he | hl
  · have := h'.2 i hl; rw [h.1] at this; cases this
  · exact he
  · have := h.2 j hl; rw [h'.1] at this; cases this

theorem IsLast.unique {w : Nat} {v : BitVec w} {i j : Nat} (h : IsLast v i) (h' : IsLast v j) : i = j := by
  rcases Nat.lt_trichotomy i j with hl | he | hl
  · have := h.2 j hl; rw [h'.1] at this; cases this
  · exact he
  · have := h'.2 i hl; rw [h.1] at this; cases this

theorem IsFirst.lt {w : Nat} {v : BitVec w} {i : Nat} (h : IsFirst v i) : i < w := BitVec.lt_of_getLsbD h.1
theorem IsLast.lt {w : Nat} {v : BitVec w} {i : Nat} (h : IsLast v i) : i < w := BitVec.lt_of_getLsbD h.1

theorem ne_zero_iff {w : Nat} (v : BitVec w) : v ≠ 0 ↔ ∃ i, v.getLsbD i = true := by
  constructor
  · intro h
    apply Classical.byContradiction
    intro hn
    apply h
    apply BitVec.eq_of_getLsbD_eq
    intro i _
    cases hb : v.getLsbD i with
    | true => exact absurd ⟨i, hb⟩ hn
    | false => simp
  · rintro ⟨i, hi⟩ rfl
    simp at hi

theorem allOnes_not {w : Nat} (v : BitVec w) : ~~~v = 0 ↔ v = BitVec.allOnes w := by
  constructor
  · intro h
    have := congrArg (fun x => ~~~x) h
    simpa using this
  · rintro rfl; simp

/-! #### Generic scans -/

theorem mask_eq_zero (k : Nat) (hk : k < 64) (v : Word) :
    v &&& BitVec.ofNat 64 (2 ^ k - 1) = 0 ↔ ∀ j, j < k → v.getLsbD j = false := by
  have hm : ∀ j, (BitVec.ofNat 64 (2 ^ k - 1)).getLsbD j = decide (j < k) := by
    intro j
    rw [BitVec.getLsbD_ofNat, Nat.testBit_two_pow_sub_one]
    by_cases h : j < k
    · simp [h]; omega
    · simp [h]
  constructor
  · intro h j hj
    have := congrArg (fun x => x.getLsbD j) h
    simp only [BitVec.getLsbD_and, hm] at this
    simpa [hj] using this
  · intro h
    apply BitVec.eq_of_getLsbD_eq
    intro j _
    rw [BitVec.getLsbD_and, hm]
    by_cases hj : j < k
    · simp [h j hj]
    · simp [hj]

/-- Progress of the first-set scan: everything below the shift is clear, and a set bit remains among the lowest `n` bits. -/
structure FfInv (orig : Word) (n : Nat) (st : Nat × Word) : Prop where
  view : ∀ j, st.2.getLsbD j = orig.getLsbD (st.1 + j)
  below : ∀ j, j < st.1 → orig.getLsbD j = false
  some_bit : ∃ j, j < n ∧ st.2.getLsbD j = true

theorem ffStep_inv {orig : Word} {k : Nat} (hk : k < 64) {st} (h : FfInv orig (2 * k) st) : FfInv orig k (ffStep k st) := by
  unfold ffStep
  split
  · next hz =>
    rw [mask_eq_zero k hk] at hz
    refine ⟨fun j => ?_, fun j hj => ?_, ?_⟩
    · simp only [BitVec.getLsbD_ushiftRight, h.view]
      exact congrArg _ (by omega)
    · simp only at hj
      by_cases h1 : j < st.1
      · exact h.below j h1
      · have := hz (j - st.1) (by omega)
        rw [h.view] at this
        rwa [show st.1 + (j - st.1) = j by omega] at this
    · obtain ⟨j, hj, hb⟩ := h.some_bit
      have hge : k ≤ j := by
        apply Nat.le_of_not_lt
        intro hl
        rw [hz j hl] at hb; cases hb
      refine ⟨j - k, by omega, ?_⟩
      simp only [BitVec.getLsbD_ushiftRight]
      rwa [show k + (j - k) = j by omega]
  · next hz =>
    rw [mask_eq_zero k hk] at hz
    refine ⟨h.view, h.below, ?_⟩
    apply Classical.byContradiction
    intro hn
    apply hz
    intro j hj
    cases hb : st.2.getLsbD j with
    | false => rfl
    | true => exact absurd ⟨j, hj, hb⟩ hn

theorem ffsufGeneric_first (v : Word) (h : v ≠ 0) : IsFirst v (ffsufGeneric v) := by
  obtain ⟨i, hi⟩ := (ne_zero_iff v).1 h
  have h0 : FfInv v (2 * 32) (0, v) := ⟨fun j => by simp, fun j hj => by simp at hj, i, BitVec.lt_of_getLsbD hi, hi⟩
  have h1 := ffStep_inv (k := 32) (by decide) h0
  have h2 := ffStep_inv (k := 16) (by decide) h1
  have h3 := ffStep_inv (k := 8) (by decide) h2
  have h4 := ffStep_inv (k := 4) (by decide) h3
  have h5 := ffStep_inv (k := 2) (by decide) h4
  have h6 := ffStep_inv (k := 1) (by decide) h5
  refine ⟨?_, h6.below⟩
  obtain ⟨j, hj, hb⟩ := h6.some_bit
  have : j = 0 := by omega
  subst this
  rw [h6.view] at hb
  exact hb

theorem topmask_eq_zero (k : Nat) (hk : k ≤ 64) (v : Word) :
    v &&& (BitVec.allOnes 64 <<< (64 - k)) = 0 ↔ ∀ j, 64 - k ≤ j → v.getLsbD j = false := by
  constructor
  · intro h j hj
    by_cases h64 : j < 64
    · have := congrArg (fun x => x.getLsbD j) h
      simp only [BitVec.getLsbD_and, BitVec.getLsbD_shiftLeft, BitVec.getLsbD_allOnes] at this
      simpa [h64, show ¬ j < 64 - k by omega, show j - (64 - k) < 64 by omega] using this
    · exact BitVec.getLsbD_of_ge _ _ (by omega)
  · intro h
    apply BitVec.eq_of_getLsbD_eq
    intro j _
    rw [BitVec.getLsbD_and]
    by_cases hj : 64 - k ≤ j
    · simp [h j hj]
    · simp only [BitVec.getLsbD_shiftLeft]
      simp [show j < 64 - k by omega]

/-- Progress of the last-set scan. -/
structure FlInv (orig : Word) (n : Nat) (st : Nat × Word) : Prop where
  lt : st.1 < 64
  view : ∀ j, j ≤ st.1 → st.2.getLsbD (63 - j) = orig.getLsbD (st.1 - j)
  above : ∀ j, st.1 < j → orig.getLsbD j = false
  some_bit : ∃ j, j < n ∧ j ≤ st.1 ∧ st.2.getLsbD (63 - j) = true

theorem flStep_inv {orig : Word} {k : Nat} (hk : k < 64) {st} (h : FlInv orig (2 * k) st) : FlInv orig k (flStep k st) := by
  have hlt := h.lt
  unfold flStep
  split
  · next hz =>
    rw [topmask_eq_zero k (by omega)] at hz
    obtain ⟨j, hj, hjs, hb⟩ := h.some_bit
    have hge : k ≤ j := by
      apply Nat.le_of_not_lt
      intro hl
      rw [hz (63 - j) (by omega)] at hb; cases hb
    refine ⟨by simp only; omega, fun i hi => ?_, fun i hi => ?_, ?_⟩
    · simp only at hi
      have e := h.view (i + k) (by omega)
      simp only [BitVec.getLsbD_shiftLeft]
      rw [show st.1 - k - i = st.1 - (i + k) by omega, ← e, show 63 - i - k = 63 - (i + k) by omega]
      simp [show 63 - i < 64 by omega, show ¬ 63 - i < k by omega]
    · simp only at hi
      by_cases h1 : st.1 < i
      · exact h.above i h1
      · have e := h.view (st.1 - i) (by omega)
        rw [hz _ (by omega), show st.1 - (st.1 - i) = i by omega] at e
        exact e.symm
    · refine ⟨j - k, by omega, by simp only; omega, ?_⟩
      simp only [BitVec.getLsbD_shiftLeft]
      rw [show 63 - (j - k) - k = 63 - j by omega, hb]
      simp [show 63 - (j - k) < 64 by omega, show ¬ 63 - (j - k) < k by omega]
  · next hz =>
    rw [topmask_eq_zero k (by omega)] at hz
    refine ⟨hlt, h.view, h.above, ?_⟩
    apply Classical.byContradiction
    intro hn
    apply hz
    intro j hj
    by_cases h64 : j < 64
    · cases hb : st.2.getLsbD j with
      | false => rfl
      | true =>
        exfalso
        by_cases hs : 63 - j ≤ st.1
        · exact hn ⟨63 - j, by omega, hs, by rwa [show 63 - (63 - j) = j by omega]⟩
        · obtain ⟨i, hi, his, hbi⟩ := h.some_bit
          exact hn ⟨i, by omega, his, hbi⟩
    · exact BitVec.getLsbD_of_ge _ _ (by omega)

theorem flsufGeneric_last (v : Word) (h : v ≠ 0) : IsLast v (flsufGeneric v) := by
  obtain ⟨i, hi⟩ := (ne_zero_iff v).1 h
  have hi64 := BitVec.lt_of_getLsbD hi
  have h0 : FlInv v (2 * 32) (63, v) := ⟨by simp, fun j hj => rfl,
    fun j hj => BitVec.getLsbD_of_ge _ _ (by simp only at hj; omega),
    63 - i, by omega, by simp only; omega, by simpa [show 63 - (63 - i) = i by omega] using hi⟩
  have h1 := flStep_inv (k := 32) (by decide) h0
  have h2 := flStep_inv (k := 16) (by decide) h1
  have h3 := flStep_inv (k := 8) (by decide) h2
  have h4 := flStep_inv (k := 4) (by decide) h3
  have h5 := flStep_inv (k := 2) (by decide) h4
  have h6 := flStep_inv (k := 1) (by decide) h5
  refine ⟨?_, h6.above⟩
  obtain ⟨j, hj, hjs, hb⟩ := h6.some_bit
  have : j = 0 := by omega
  subst this
  rw [h6.view 0 (by omega)] at hb
  exact hb

/-! #### Builtins -/

theorem find_range {n : Nat} {p : Nat → Bool} {i : Nat} :
    (List.range n).find? p = some i ↔ i < n ∧ p i = true ∧ ∀ j, j < i → p j = false := by
  rw [List.find?_range_eq_some]
  simp only [List.mem_range, Bool.not_eq_true']
  constructor
  · rintro ⟨a, b, c⟩; exact ⟨b, a, c⟩
  · rintro ⟨a, b, c⟩; exact ⟨b, a, c⟩

theorem builtinCtz_some {v : Word} {i : Nat} : builtinCtz v = some i ↔ IsFirst v i := by
  unfold builtinCtz IsFirst
  rw [find_range]
  constructor
  · rintro ⟨_, b, c⟩; exact ⟨b, c⟩
  · rintro ⟨b, c⟩; exact ⟨BitVec.lt_of_getLsbD b, b, c⟩

theorem builtinClz_some {v : Word} {n : Nat} : builtinClz v = some n ↔ n < 64 ∧ IsLast v (63 - n) := by
  unfold builtinClz IsLast
  rw [find_range]
  constructor
  · rintro ⟨a, b, c⟩
    refine ⟨a, b, fun j hj => ?_⟩
    by_cases h64 : j < 64
    · have := c (63 - j) (by omega)
      rwa [show 63 - (63 - j) = j by omega] at this
    · exact BitVec.getLsbD_of_ge _ _ (by omega)
  · rintro ⟨a, b, c⟩
    exact ⟨a, b, fun j hj => c _ (by omega)⟩

theorem exists_first (v : Word) (h : v ≠ 0) : ∃ i, IsFirst v i := ⟨_, ffsufGeneric_first v h⟩
theorem exists_last (v : Word) (h : v ≠ 0) : ∃ i, IsLast v i := ⟨_, flsufGeneric_last v h⟩

theorem builtinCtz_zero : builtinCtz 0 = none := by decide
theorem builtinClz_zero : builtinClz 0 = none := by decide

theorem ffsuf_some {v : Word} {i : Nat} : ffsuf v = some i ↔ IsFirst v i := builtinCtz_some

theorem flsuf_some {v : Word} {i : Nat} : flsuf v = some i ↔ IsLast v i := by
  unfold flsuf
  rw [Option.map_eq_some_iff]
  constructor
  · rintro ⟨n, hn, rfl⟩
    exact (builtinClz_some.1 hn).2
  · intro h
    have := h.lt
    exact ⟨63 - i, builtinClz_some.2 ⟨by omega, by rwa [show 63 - (63 - i) = i by omega]⟩, by omega⟩

theorem fls_eq {v : Word} {i : Nat} (h : IsLast v i) : fls v = some (i + 1) := by
  have hv : v ≠ 0 := (ne_zero_iff v).2 ⟨i, h.1⟩
  have := h.lt
  have e : builtinClz v = some (63 - i) := builtinClz_some.2 ⟨by omega, by rwa [show 63 - (63 - i) = i by omega]⟩
  unfold fls
  rw [if_pos hv, e]
  simp; omega

theorem isLast_iff_pow {w : Nat} (v : BitVec w) (i : Nat) : IsLast v i ↔ 2 ^ i ≤ v.toNat ∧ v.toNat < 2 ^ (i + 1) := by
  unfold IsLast
  constructor
  · rintro ⟨a, b⟩
    refine ⟨Nat.ge_two_pow_of_testBit a, ?_⟩
    apply Nat.lt_pow_two_of_testBit
    intro j hj
    exact b j (by omega)
  · rintro ⟨a, b⟩
    refine ⟨?_, ?_⟩
    · obtain ⟨j, hj, hb⟩ := Nat.exists_ge_and_testBit_of_ge_two_pow a
      have : j = i := by
        apply Nat.le_antisymm _ hj
        apply Nat.le_of_lt_succ
        apply Nat.lt_of_not_le
        intro hle
        have h1 := Nat.ge_two_pow_of_testBit hb
        have h2 : 2 ^ (i + 1) ≤ 2 ^ j := Nat.pow_le_pow_right (by decide) hle
        omega
      subst this; exact hb
    · intro j hj
      apply Nat.testBit_lt_two_pow
      exact Nat.lt_of_lt_of_le b (Nat.pow_le_pow_right (by decide) hj)

/-! #### n-th set bit -/

theorem bitClr_bit (w : Word) (b i : Nat) (hb : b < 64) : (bitClr w b).getLsbD i = (w.getLsbD i && !decide (i = b)) := by
  unfold bitClr
  by_cases hi : i < 64
  · rw [BitVec.getLsbD_and, BitVec.getLsbD_not]
    have : (1#64 <<< b).getLsbD i = decide (i = b) := by
      rw [BitVec.getLsbD_shiftLeft]
      simp only [BitVec.getLsbD_one]
      by_cases h : i = b
      · simp [h, hb]
      · simp only [h, decide_false]
        by_cases h2 : i < b
        · simp [h2]
        · simp [show ¬ (i - b = 0) by omega]
    rw [this]; simp [hi]
  · rw [BitVec.getLsbD_of_ge _ _ (by omega), BitVec.getLsbD_of_ge _ _ (by omega)]; rfl

theorem filter_split {l : List Nat} (p : Nat → Bool) (b : Nat) (hs : l.Pairwise (· < ·)) (hm : b ∈ l) (hp : p b = true)
    (hf : ∀ j, j ∈ l → j < b → p j = false) :
    l.filter p = b :: l.filter (fun i => p i && !decide (i = b)) := by
  induction l with
  | nil => cases hm
  | cons x l ih =>
    rw [List.pairwise_cons] at hs
    by_cases hx : x = b
    · subst hx
      rw [List.filter_cons_of_pos hp, List.filter_cons_of_neg (by simp)]
      congr 1
      apply List.filter_congr
      intro i hi
      have := hs.1 i hi
      simp [show i ≠ x by omega]
    · have hm' : b ∈ l := by
        rcases List.mem_cons.1 hm with h | h
        · exact absurd h.symm hx
        · exact h
      have hlt := hs.1 b hm'
      have hpx := hf x (List.mem_cons_self ..) hlt
      rw [List.filter_cons_of_neg (by simp [hpx]), List.filter_cons_of_neg (by simp [hpx])]
      exact ih hs.2 hm' (fun j hj hl => hf j (List.mem_cons_of_mem _ hj) hl)

theorem setBits_first {v : Word} {b : Nat} (h : IsFirst v b) : setBits v = b :: setBits (bitClr v b) := by
  have hb := h.lt
  unfold setBits
  rw [filter_split (fun i => v.getLsbD i) b List.pairwise_lt_range (List.mem_range.2 hb) h.1 (fun j _ hj => h.2 j hj)]
  congr 1
  apply List.filter_congr
  intro i _
  exact (bitClr_bit v b i hb).symm

theorem filter_split_rev {l : List Nat} (p : Nat → Bool) (b : Nat) (hs : l.Pairwise (· < ·)) (hm : b ∈ l) (hp : p b = true)
    (hf : ∀ j, j ∈ l → b < j → p j = false) :
    l.filter p = l.filter (fun i => p i && !decide (i = b)) ++ [b] := by
  induction l with
  | nil => cases hm
  | cons x l ih =>
    rw [List.pairwise_cons] at hs
    by_cases hx : x = b
    · subst hx
      rw [List.filter_cons_of_pos hp, List.filter_cons_of_neg (by simp)]
      have e1 : l.filter p = [] := by
        rw [List.filter_eq_nil_iff]
        intro a ha
        simp [hf a (List.mem_cons_of_mem _ ha) (hs.1 a ha)]
      have e2 : l.filter (fun i => p i && !decide (i = x)) = [] := by
        rw [List.filter_eq_nil_iff]
        intro a ha
        simp [hf a (List.mem_cons_of_mem _ ha) (hs.1 a ha)]
      rw [e1, e2]; rfl
    · have hm' : b ∈ l := by
        rcases List.mem_cons.1 hm with h | h
        · exact absurd h.symm hx
        · exact h
      have := ih hs.2 hm' (fun j hj hl => hf j (List.mem_cons_of_mem _ hj) hl)
      rw [List.filter_cons, List.filter_cons, this]
      simp only [hx, decide_false, Bool.not_false, Bool.and_true]
      split <;> simp

theorem setBits_last {v : Word} {b : Nat} (h : IsLast v b) : (setBits v).reverse = b :: (setBits (bitClr v b)).reverse := by
  have hb := h.lt
  unfold setBits
  rw [filter_split_rev (fun i => v.getLsbD i) b List.pairwise_lt_range (List.mem_range.2 hb) h.1 (fun j _ hj => h.2 j hj),
    List.reverse_append]
  simp only [List.reverse_cons, List.reverse_nil, List.nil_append, List.singleton_append]
  congr 2
  apply List.filter_congr
  intro i _
  exact (bitClr_bit v b i hb).symm

theorem setBits_zero_iff (v : Word) : setBits v = [] ↔ v = 0 := by
  unfold setBits
  rw [List.filter_eq_nil_iff]
  constructor
  · intro h
    apply Classical.byContradiction
    intro hn
    obtain ⟨i, hi⟩ := (ne_zero_iff v).1 hn
    exact h i (List.mem_range.2 (BitVec.lt_of_getLsbD hi)) hi
  · rintro rfl a _; simp

/-- The loop returns the `nr`-th element of the list its scan enumerates, or 64, and the counter left over. -/
theorem nthLoop_eq (scan : Word → Option Nat) (bits : Word → List Nat)
    (h0 : ∀ v, v = 0 → bits v = [])
    (h1 : ∀ v, v ≠ 0 → ∃ b, scan v = some b ∧ bits v = b :: bits (bitClr v b)) :
    ∀ fuel word nr, (bits word).length < fuel → nr < 2 ^ 32 →
      nthLoop scan fuel word nr =
        some (match (bits word)[nr]? with | some b => (b, 2 ^ 32 - 1) | none => (64, nr - (bits word).length)) := by
  intro fuel
  induction fuel with
  | zero => intro _ _ h; omega
  | succ n ih =>
    intro word nr hl hn
    unfold nthLoop
    by_cases hw : word = 0
    · rw [if_pos hw, h0 word hw]; simp
    · rw [if_neg hw]
      obtain ⟨b, hs, hb⟩ := h1 word hw
      rw [hs, hb]
      rw [hb, List.length_cons] at hl
      simp only [bind, Option.bind, pure]
      by_cases hz : nr = 0
      · subst hz; simp
      · rw [if_neg hz, ih _ _ (by omega) (Nat.mod_lt _ (by decide))]
        have e : (nr + (2 ^ 32 - 1)) % 2 ^ 32 = nr - 1 := by omega
        rw [e]
        obtain ⟨m, rfl⟩ : ∃ m, nr = m + 1 := ⟨nr - 1, by omega⟩
        simp only [List.getElem?_cons_succ, List.length_cons, Nat.add_sub_cancel]
        cases (bits (bitClr word b))[m]? with
        | some c => rfl
        | none => simp only [Nat.add_sub_add_right]

theorem setBits_length_le (v : Word) : (setBits v).length ≤ 64 := by
  unfold setBits
  exact Nat.le_trans (List.length_filter_le _ _) (by simp)

end Bfdev.Scan

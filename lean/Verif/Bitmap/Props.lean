import Verif.Bitmap.Search
/-!
C48: bit searches.
-/
set_option linter.unusedSimpArgs false
namespace Bfdev.Bitmap
open Bfdev.Scan (Word lowMask highMask bit bitRange ffsuf flsuf ffzuf flzuf IsFirst IsLast)

theorem small_iff {const : Bool} {bits : Nat} : constSmall const bits = true ↔ const = true ∧ 1 ≤ bits ∧ bits ≤ 64 := by
  simp [constSmall]; omega

theorem small_inside {m : Mem} {a bits : Nat} (h : Inside m a bits) (h1 : 1 ≤ bits) : a < m.length := by
  unfold Inside words at h; omega

theorem word_bitOf {m : Mem} {a j : Nat} (hj : j < 64) : (m[a]?.getD 0).getLsbD j = bitOf m a j := by
  unfold bitOf
  rw [show j / 64 = 0 by omega, show j % 64 = j by omega, Nat.add_zero]

theorem smallFirst {p : Nat → Bool} {v : Word} {lo bits : Nat} (hb : bits ≤ 64)
    (hv : ∀ j, j < 64 → v.getLsbD j = (p j && decide (lo ≤ j ∧ j < bits))) :
    ∃ r, (if v = 0 then some bits else ffsuf v) = some r ∧ FirstAt p lo bits r := by
  by_cases hz : v = 0
  · rw [if_pos hz]
    refine ⟨bits, rfl, Or.inr ⟨rfl, fun j h1 h2 => ?_⟩⟩
    have := hv j (by omega)
    rw [hz] at this
    simpa [h1, h2] using this.symm
  · rw [if_neg hz]
    obtain ⟨k, e, hk, h1, h2⟩ := isFirst_of hz
    rw [hv k hk] at h1
    simp only [Bool.and_eq_true, decide_eq_true_eq] at h1
    refine ⟨k, e, Or.inl ⟨h1.2.1, h1.2.2, h1.1, fun j h3 h4 => ?_⟩⟩
    have := hv j (by omega)
    rw [h2 j h4] at this
    have h5 : j < bits := by omega
    simpa [h3, h5] using this.symm

theorem smallLast {p : Nat → Bool} {v : Word} {hi bits : Nat} (hb : hi ≤ 64)
    (hv : ∀ j, j < 64 → v.getLsbD j = (p j && decide (j < hi))) :
    ∃ r, (if v = 0 then some bits else flsuf v) = some r ∧ LastAt p hi bits r := by
  by_cases hz : v = 0
  · rw [if_pos hz]
    refine ⟨bits, rfl, Or.inr ⟨rfl, fun j h1 => ?_⟩⟩
    have := hv j (by omega)
    rw [hz] at this
    simpa [h1] using this.symm
  · rw [if_neg hz]
    obtain ⟨k, e, hk, h1, h2⟩ := isLast_of hz
    rw [hv k hk] at h1
    simp only [Bool.and_eq_true, decide_eq_true_eq] at h1
    refine ⟨k, e, Or.inl ⟨h1.2, h1.1, fun j h3 h4 => ?_⟩⟩
    have := hv j (by omega)
    rw [h2 j h3] at this
    simpa [h4] using this.symm

/-- The same with the word inverted. -/
theorem smallFirstZ {p : Nat → Bool} {v : Word} {lo bits : Nat} (hb : bits ≤ 64)
    (hv : ∀ j, j < 64 → v.getLsbD j = (p j || !decide (lo ≤ j ∧ j < bits))) :
    ∃ r, (if v = BitVec.allOnes 64 then some bits else ffzuf v) = some r ∧ FirstAt (fun i => !p i) lo bits r := by
  have := smallFirst (p := fun i => !p i) (v := ~~~v) (lo := lo) hb (fun j hj => by
    rw [BitVec.getLsbD_not, hv j hj]; simp [hj, Bool.not_or])
  simpa only [Scan.allOnes_not, ffzuf] using this

theorem smallLastZ {p : Nat → Bool} {v : Word} {hi bits : Nat} (hb : hi ≤ 64)
    (hv : ∀ j, j < 64 → v.getLsbD j = (p j || !decide (j < hi))) :
    ∃ r, (if v = BitVec.allOnes 64 then some bits else flzuf v) = some r ∧ LastAt (fun i => !p i) hi bits r := by
  have := smallLast (p := fun i => !p i) (v := ~~~v) (hi := hi) (bits := bits) hb (fun j hj => by
    rw [BitVec.getLsbD_not, hv j hj]; simp [hj, Bool.not_or])
  simpa only [Scan.allOnes_not, flzuf] using this

theorem lowMask_small {n j : Nat} (h1 : 1 ≤ n) (h2 : n ≤ 64) : (lowMask n).getLsbD j = decide (j < n) := Scan.masks_correct.1 n j h1 h2

theorem bitRange_eq {hi lo : Nat} (h1 : hi < 64) (h2 : lo < 64) : ∃ r, bitRange hi lo = some r ∧ ∀ i, r.getLsbD i = decide (lo ≤ i ∧ i ≤ hi) := by
  obtain ⟨r, e, -⟩ := Scan.masks_correct.2.2.2 hi lo 0 h1 h2
  refine ⟨r, e, fun i => ?_⟩
  obtain ⟨r', e', h⟩ := Scan.masks_correct.2.2.2 hi lo i h1 h2
  rw [e] at e'
  cases e'
  exact h

theorem not_lt_decide (i n : Nat) : (!decide (i < n)) = decide (n ≤ i) := by
  by_cases h : i < n
  · simp [h]
  · simp [h]; omega

theorem FirstAt.congr {p q : Nat → Bool} {lo bits r : Nat} (h : FirstAt p lo bits r) (e : ∀ i, p i = q i) : FirstAt q lo bits r := by
  have : p = q := funext e
  subst this; exact h
theorem LastAt.congr {p q : Nat → Bool} {lo bits r : Nat} (h : LastAt p lo bits r) (e : ∀ i, p i = q i) : LastAt q lo bits r := by
  have : p = q := funext e
  subst this; exact h

section
variable {m : Mem} {a bits : Nat}

/-- C48: first set bit. -/
theorem find_first_bit (const : Bool) (ha : Inside m a bits) (hb : bits ≤ 2 ^ 32 - 64) :
    ∃ r, findFirstBit const m a bits = some r ∧ FirstAt (bitOf m a) 0 bits r := by
  unfold findFirstBit
  by_cases hc : constSmall const bits = true
  · rw [hc]
    obtain ⟨-, h1, h2⟩ := small_iff.1 hc
    simp only [Bool.not_true, Bool.false_eq_true, if_false, bind, Option.bind, rd_some (small_inside ha h1)]
    refine smallFirst h2 (fun j hj => ?_)
    rw [BitVec.getLsbD_and, word_bitOf hj, lowMask_small h1 h2]; simp
  · rw [if_pos (by simpa using hc)]
    obtain ⟨r, e, h⟩ := compFindFirst_eq false false ha hb
    exact ⟨r, e, h.congr (fun i => by simp [bitOrd])⟩

/-- C48: last set bit. -/
theorem find_last_bit (const : Bool) (ha : Inside m a bits) :
    ∃ r, findLastBit const m a bits = some r ∧ LastAt (bitOf m a) bits bits r := by
  unfold findLastBit
  by_cases hc : constSmall const bits = true
  · rw [hc]
    obtain ⟨-, h1, h2⟩ := small_iff.1 hc
    simp only [Bool.not_true, Bool.false_eq_true, if_false, bind, Option.bind, rd_some (small_inside ha h1)]
    refine smallLast h2 (fun j hj => ?_)
    rw [BitVec.getLsbD_and, word_bitOf hj, lowMask_small h1 h2]
  · rw [if_pos (by simpa using hc)]
    obtain ⟨r, e, h⟩ := compFindLast_eq false false ha
    exact ⟨r, e, h.congr (fun i => by simp [bitOrd])⟩

/-- C48: first zero bit, except for a bit count that the compiler knows to be exactly 64. -/
theorem find_first_zero_partial (const : Bool) (ha : Inside m a bits) (hb : bits ≤ 2 ^ 32 - 64) (hc : const = true → bits ≠ 64) :
    ∃ r, findFirstZero const m a bits = some r ∧ FirstAt (fun i => !bitOf m a i) 0 bits r := by
  unfold findFirstZero
  by_cases hs : constSmall const bits = true
  · rw [hs]
    obtain ⟨h0, h1, h2⟩ := small_iff.1 hs
    simp only [Bool.not_true, Bool.false_eq_true, if_false, bind, Option.bind, rd_some (small_inside ha h1)]
    refine smallFirstZ h2 (fun j hj => ?_)
    have := hc h0
    rw [BitVec.getLsbD_or, word_bitOf hj, highMask_bit, show bits % 64 = bits by omega]
    congr 1
    simp [hj, not_lt_decide]
  · rw [if_pos (by simpa using hs)]
    obtain ⟨r, e, h⟩ := compFindFirst_eq true false ha hb
    exact ⟨r, e, h.congr (fun i => by simp [bitOrd])⟩

/-- C48: last zero bit, with the same exception. -/
theorem find_last_zero_partial (const : Bool) (ha : Inside m a bits) (hc : const = true → bits ≠ 64) :
    ∃ r, findLastZero const m a bits = some r ∧ LastAt (fun i => !bitOf m a i) bits bits r := by
  unfold findLastZero
  by_cases hs : constSmall const bits = true
  · rw [hs]
    obtain ⟨h0, h1, h2⟩ := small_iff.1 hs
    simp only [Bool.not_true, Bool.false_eq_true, if_false, bind, Option.bind, rd_some (small_inside ha h1)]
    refine smallLastZ h2 (fun j hj => ?_)
    have := hc h0
    rw [BitVec.getLsbD_or, word_bitOf hj, highMask_bit, show bits % 64 = bits by omega]
    congr 1
    simp [hj, not_lt_decide]
  · rw [if_pos (by simpa using hs)]
    obtain ⟨r, e, h⟩ := compFindLast_eq true false ha
    exact ⟨r, e, h.congr (fun i => by simp [bitOrd])⟩

/-- C48: the next set bit at or after `offset`. -/
theorem find_next_bit (const : Bool) (offset : Nat) (ha : Inside m a bits) (hb : bits ≤ 2 ^ 32 - 64) :
    ∃ r, findNextBit const m a bits offset = some r ∧ FirstAt (bitOf m a) offset bits r := by
  unfold findNextBit
  by_cases hs : constSmall const bits = true
  · rw [hs]
    obtain ⟨h0, h1, h2⟩ := small_iff.1 hs
    simp only [Bool.not_true, Bool.false_eq_true, if_false]
    by_cases ho : bits ≤ offset
    · rw [if_pos ho]; exact ⟨bits, rfl, Or.inr ⟨rfl, by omega⟩⟩
    · obtain ⟨k, ek, hk⟩ := bitRange_eq (hi := bits - 1) (lo := offset) (by omega) (by omega)
      rw [if_neg ho]
      simp only [bind, Option.bind, rd_some (small_inside ha h1), ek]
      refine smallFirst h2 (fun j hj => ?_)
      rw [BitVec.getLsbD_and, word_bitOf hj, hk]
      congr 1
      rw [decide_eq_decide]; omega
  · rw [if_pos (by simpa using hs)]
    obtain ⟨r, e, h⟩ := compFindNext_eq (a2 := none) (start := offset) false false ha (by simp) hb
    exact ⟨r, e, h.congr (fun i => by simp [bitOrd, pairBit])⟩

/-- C48: the next zero bit at or after `offset`. -/
theorem find_next_zero (const : Bool) (offset : Nat) (ha : Inside m a bits) (hb : bits ≤ 2 ^ 32 - 64) :
    ∃ r, findNextZero const m a bits offset = some r ∧ FirstAt (fun i => !bitOf m a i) offset bits r := by
  unfold findNextZero
  by_cases hs : constSmall const bits = true
  · rw [hs]
    obtain ⟨h0, h1, h2⟩ := small_iff.1 hs
    simp only [Bool.not_true, Bool.false_eq_true, if_false]
    by_cases ho : bits ≤ offset
    · rw [if_pos ho]; exact ⟨bits, rfl, Or.inr ⟨rfl, by omega⟩⟩
    · obtain ⟨k, ek, hk⟩ := bitRange_eq (hi := bits - 1) (lo := offset) (by omega) (by omega)
      rw [if_neg ho]
      simp only [bind, Option.bind, rd_some (small_inside ha h1), ek]
      refine smallFirstZ h2 (fun j hj => ?_)
      rw [BitVec.getLsbD_or, word_bitOf hj, BitVec.getLsbD_not, hk]
      congr 1
      simp only [hj, decide_true, Bool.true_and]
      congr 1
      rw [decide_eq_decide]; omega
  · rw [if_pos (by simpa using hs)]
    obtain ⟨r, e, h⟩ := compFindNext_eq (a2 := none) (start := offset) true false ha (by simp) hb
    exact ⟨r, e, h.congr (fun i => by simp [bitOrd, pairBit])⟩

/-- C48: the last set bit at or before `offset`. -/
theorem find_prev_bit (const : Bool) (offset : Nat) (ha : Inside m a bits) (hb : bits ≤ 2 ^ 32 - 64) :
    ∃ r, findPrevBit const m a bits offset = some r ∧ (offset < bits → LastAt (bitOf m a) (offset + 1) bits r) ∧ (bits ≤ offset → r = bits) := by
  unfold findPrevBit
  by_cases hs : constSmall const bits = true
  · rw [hs]
    obtain ⟨h0, h1, h2⟩ := small_iff.1 hs
    simp only [Bool.not_true, Bool.false_eq_true, if_false]
    by_cases ho : bits ≤ offset
    · rw [if_pos ho]; exact ⟨bits, rfl, by omega, by omega⟩
    · rw [if_neg ho]
      simp only [bind, Option.bind, rd_some (small_inside ha h1)]
      obtain ⟨r, e, h⟩ := smallLast (p := bitOf m a) (v := (m[a]?.getD 0) &&& lowMask (offset + 1)) (hi := offset + 1) (bits := bits) (by omega) (fun j hj => by
        rw [BitVec.getLsbD_and, word_bitOf hj, lowMask_small (by omega) (by omega)])
      exact ⟨r, e, fun _ => h, fun h => absurd h ho⟩
  · rw [if_pos (by simpa using hs)]
    obtain ⟨r, e, h, h'⟩ := compFindPrev_eq (a2 := none) (start := offset) false false ha (by simp) hb
    exact ⟨r, e, fun ho => (h ho).congr (fun i => by simp [bitOrd, pairBit]), h'⟩

/-- C48: the last zero bit at or before `offset`, except for `offset = 63` in a bitmap of known size 64. -/
theorem find_prev_zero_partial (const : Bool) (offset : Nat) (ha : Inside m a bits) (hb : bits ≤ 2 ^ 32 - 64) (hc : const = true → bits = 64 → offset ≠ 63) :
    ∃ r, findPrevZero const m a bits offset = some r ∧ (offset < bits → LastAt (fun i => !bitOf m a i) (offset + 1) bits r) ∧ (bits ≤ offset → r = bits) := by
  unfold findPrevZero
  by_cases hs : constSmall const bits = true
  · rw [hs]
    obtain ⟨h0, h1, h2⟩ := small_iff.1 hs
    simp only [Bool.not_true, Bool.false_eq_true, if_false]
    by_cases ho : bits ≤ offset
    · rw [if_pos ho]; exact ⟨bits, rfl, by omega, by omega⟩
    · rw [if_neg ho]
      simp only [bind, Option.bind, rd_some (small_inside ha h1)]
      obtain ⟨r, e, h⟩ := smallLastZ (p := bitOf m a) (v := (m[a]?.getD 0) ||| highMask (offset + 1)) (hi := offset + 1) (bits := bits) (by omega) (fun j hj => by
        rw [BitVec.getLsbD_or, word_bitOf hj, highMask_bit, show (offset + 1) % 64 = offset + 1 by have := hc h0; omega]
        congr 1
        simp [hj, not_lt_decide])
      exact ⟨r, e, fun _ => h, fun h => absurd h ho⟩
  · rw [if_pos (by simpa using hs)]
    obtain ⟨r, e, h, h'⟩ := compFindPrev_eq (a2 := none) (start := offset) true false ha (by simp) hb
    exact ⟨r, e, fun ho => (h ho).congr (fun i => by simp [bitOrd, pairBit]), h'⟩

/-- C48: the next bit set in both bitmaps. -/
theorem find_next_and_bit (const : Bool) (offset : Nat) {a2 : Nat} (ha : Inside m a bits) (ha2 : Inside m a2 bits) (hb : bits ≤ 2 ^ 32 - 64) :
    ∃ r, findNextAndBit const m a a2 bits offset = some r ∧ FirstAt (fun i => bitOf m a i && bitOf m a2 i) offset bits r := by
  unfold findNextAndBit
  by_cases ho : bits ≤ offset
  · rw [if_pos ho]; exact ⟨bits, rfl, Or.inr ⟨rfl, by omega⟩⟩
  · rw [if_neg ho]
    by_cases hs : constSmall const bits = true
    · rw [hs]
      obtain ⟨h0, h1, h2⟩ := small_iff.1 hs
      obtain ⟨k, ek, hk⟩ := bitRange_eq (hi := bits - 1) (lo := offset) (by omega) (by omega)
      simp only [Bool.not_true, Bool.false_eq_true, if_false, bind, Option.bind, rd_some (small_inside ha h1), rd_some (small_inside ha2 h1), ek]
      refine smallFirst h2 (fun j hj => ?_)
      rw [BitVec.getLsbD_and, BitVec.getLsbD_and, word_bitOf hj, word_bitOf hj, hk]
      congr 1
      rw [decide_eq_decide]; omega
    · rw [if_pos (by simpa using hs)]
      obtain ⟨r, e, h⟩ := compFindNext_eq (a2 := some a2) (start := offset) false false ha (by simpa using ha2) hb
      exact ⟨r, e, h.congr (fun i => by simp [bitOrd, pairBit])⟩

/-- C48: the last bit at or before `offset` set in both bitmaps. -/
theorem find_prev_and_bit (const : Bool) (offset : Nat) {a2 : Nat} (ha : Inside m a bits) (ha2 : Inside m a2 bits) (hb : bits ≤ 2 ^ 32 - 64) :
    ∃ r, findPrevAndBit const m a a2 bits offset = some r ∧
      (offset < bits → LastAt (fun i => bitOf m a i && bitOf m a2 i) (offset + 1) bits r) ∧ (bits ≤ offset → r = bits) := by
  unfold findPrevAndBit
  by_cases hs : constSmall const bits = true
  · rw [hs]
    obtain ⟨h0, h1, h2⟩ := small_iff.1 hs
    simp only [Bool.not_true, Bool.false_eq_true, if_false]
    by_cases ho : bits ≤ offset
    · rw [if_pos ho]; exact ⟨bits, rfl, by omega, by omega⟩
    · rw [if_neg ho]
      simp only [bind, Option.bind, rd_some (small_inside ha h1), rd_some (small_inside ha2 h1)]
      obtain ⟨r, e, h⟩ := smallLast (p := fun i => bitOf m a i && bitOf m a2 i) (v := (m[a]?.getD 0) &&& (m[a2]?.getD 0) &&& lowMask (offset + 1)) (hi := offset + 1) (bits := bits) (by omega) (fun j hj => by
        rw [BitVec.getLsbD_and, BitVec.getLsbD_and, word_bitOf hj, word_bitOf hj, lowMask_small (by omega) (by omega)])
      exact ⟨r, e, fun _ => h, fun h => absurd h ho⟩
  · rw [if_pos (by simpa using hs)]
    obtain ⟨r, e, h, h'⟩ := compFindPrev_eq (a2 := some a2) (start := offset) false false ha (by simpa using ha2) hb
    exact ⟨r, e, fun ho => (h ho).congr (fun i => by simp [bitOrd, pairBit]), h'⟩

/-- C48, the general routines with either byte order of the words and optional inversion. -/
theorem comp_searches (inv swap : Bool) (ha : Inside m a bits) (hb : bits ≤ 2 ^ 32 - 64) :
    (∃ r, compFindFirst m a bits (if inv then BitVec.allOnes 64 else 0) swap = some r ∧ FirstAt (fun i => bitOrd swap m a i != inv) 0 bits r) ∧
    (∃ r, compFindLast m a bits (if inv then BitVec.allOnes 64 else 0) swap = some r ∧ LastAt (fun i => bitOrd swap m a i != inv) bits bits r) ∧
    (∀ start, ∃ r, compFindNext m a none bits start (if inv then BitVec.allOnes 64 else 0) swap = some r ∧
      FirstAt (fun i => bitOrd swap m a i != inv) start bits r) ∧
    (∀ start, start < bits → ∃ r, compFindPrev m a none bits start (if inv then BitVec.allOnes 64 else 0) swap = some r ∧
      LastAt (fun i => bitOrd swap m a i != inv) (start + 1) bits r) := by
  refine ⟨compFindFirst_eq inv swap ha hb, compFindLast_eq inv swap ha, fun start => ?_, fun start hs => ?_⟩
  · obtain ⟨r, e, h⟩ := compFindNext_eq (a2 := none) (start := start) inv swap ha (by simp) hb
    exact ⟨r, e, h.congr (fun i => by simp [pairBit])⟩
  · obtain ⟨r, e, h, -⟩ := compFindPrev_eq (a2 := none) (start := start) inv swap ha (by simp) hb
    exact ⟨r, e, (h hs).congr (fun i => by simp [pairBit])⟩

end

/-- Disagreement: with a known size of 64, zeros are never found from either end, whatever the word. -/
theorem find_zero_violated (m : Mem) (a : Nat) (ha : a < m.length) :
    findFirstZero true m a 64 = some 64 ∧ findLastZero true m a 64 = some 64 ∧ findPrevZero true m a 64 63 = some 64 := by
  have e : highMask 64 = BitVec.allOnes 64 := by decide
  have e' : ∀ v : Word, v ||| BitVec.allOnes 64 = BitVec.allOnes 64 := by
    intro v
    apply BitVec.eq_of_getLsbD_eq
    intro i hi
    rw [BitVec.getLsbD_or, BitVec.getLsbD_allOnes]; simp [hi]
  refine ⟨?_, ?_, ?_⟩
  · simp only [findFirstZero, constSmall, rd_some ha, bind, Option.bind, e, e']; rfl
  · simp only [findLastZero, constSmall, rd_some ha, bind, Option.bind, e, e']; rfl
  · simp only [findPrevZero, constSmall, rd_some ha, bind, Option.bind, e, e']; rfl

example : findFirstZero true [0xfffffffffffffff7#64] 0 64 = some 64 ∧ findFirstZero false [0xfffffffffffffff7#64] 0 64 = some 3 := by decide +kernel

/-! Iteration -/

theorem walk_up {bits : Nat} {p : Nat → Bool} {next : Nat → Option Nat} (hn : ∀ i, i < bits → ∃ r, next i = some r ∧ FirstAt p (i + 1) bits r) :
    ∀ (fuel i lo : Nat), FirstAt p lo bits i → bits - lo < fuel → lo ≤ bits →
      walkLoop bits next fuel i = some ((List.range' lo (bits - lo)).filter p) := by
  intro fuel
  induction fuel with
  | zero => intro i lo _ h; omega
  | succ fuel ih =>
    intro i lo hf hl hle
    rw [walkLoop]
    rcases hf with ⟨h1, h2, h3, h4⟩ | ⟨h1, h2⟩
    · rw [if_pos h2]
      obtain ⟨r, e, hr⟩ := hn i h2
      simp only [bind, Option.bind, e]
      rw [ih r (i + 1) hr (by omega) (by omega)]
      have e1 : List.range' lo (bits - lo) = List.range' lo (i - lo) ++ i :: List.range' (i + 1) (bits - (i + 1)) := by
        rw [show bits - lo = (i - lo) + ((bits - (i + 1)) + 1) by omega, ← List.range'_append_1, List.range'_succ, show lo + (i - lo) = i by omega]
      rw [e1, List.filter_append, List.filter_cons, if_pos h3]
      have e2 : (List.range' lo (i - lo)).filter p = [] := by
        rw [List.filter_eq_nil_iff]
        intro x hx
        rw [List.mem_range'_1] at hx
        rw [h4 x (by omega) (by omega)]; simp
      rw [e2]; rfl
    · subst h1
      rw [if_neg (by omega)]
      congr 1
      symm
      rw [List.filter_eq_nil_iff]
      intro x hx
      rw [List.mem_range'_1] at hx
      rw [h2 x (by omega) (by omega)]; simp

theorem walk_down {bits : Nat} {p : Nat → Bool} {next : Nat → Option Nat}
    (hn : ∀ i, i < bits → ∃ r, next i = some r ∧ LastAt p i bits r) :
    ∀ (fuel i hi : Nat), LastAt p hi bits i → hi < fuel → hi ≤ bits →
      walkLoop bits next fuel i = some (((List.range hi).filter p).reverse) := by
  intro fuel
  induction fuel with
  | zero => intro i lo _ h; omega
  | succ fuel ih =>
    intro i hi hf hl hle
    rw [walkLoop]
    rcases hf with ⟨h1, h3, h4⟩ | ⟨h1, h2⟩
    · rw [if_pos (by omega)]
      obtain ⟨r, e, hr⟩ := hn i (by omega)
      simp only [bind, Option.bind, e]
      rw [ih r i hr (by omega) (by omega)]
      have e1 : List.range hi = List.range i ++ i :: List.range' (i + 1) (hi - (i + 1)) := by
        rw [List.range_eq_range', List.range_eq_range']
        refine Eq.trans (congrArg (List.range' 0 ·) (show hi = i + ((hi - (i + 1)) + 1) by omega)) ?_
        rw [← List.range'_append_1, List.range'_succ]
        simp
      rw [e1, List.filter_append, List.filter_cons, if_pos h3]
      have e2 : (List.range' (i + 1) (hi - (i + 1))).filter p = [] := by
        rw [List.filter_eq_nil_iff]
        intro x hx
        rw [List.mem_range'_1] at hx
        rw [h4 x (by omega) (by omega)]; simp
      rw [e2]; simp
    · subst h1
      rw [if_neg (by omega)]
      congr 1
      symm
      rw [List.reverse_eq_nil_iff, List.filter_eq_nil_iff]
      intro x hx
      rw [List.mem_range] at hx
      rw [h2 x hx]; simp

/-- C48: iterating over the set bits yields exactly their positions, ascending or descending. -/
theorem for_each_bit (const : Bool) {m : Mem} {a bits : Nat} (ha : Inside m a bits) (hb : bits ≤ 2 ^ 32 - 64) :
    forEachBit const m a bits = some ((List.range bits).filter (bitOf m a)) ∧
    forEachBitReverse const m a bits = some (((List.range bits).filter (bitOf m a)).reverse) := by
  constructor
  · obtain ⟨r, e, h⟩ := find_first_bit const ha hb
    unfold forEachBit
    simp only [bind, Option.bind, e]
    rw [walk_up (p := bitOf m a) (fun i hi => by
      rw [show (i + 1) % 2 ^ 32 = i + 1 by omega]
      exact find_next_bit const (i + 1) ha hb) (bits + 1) r 0 h (by omega) (by omega), Nat.sub_zero, ← List.range_eq_range']
  · obtain ⟨r, e, h⟩ := find_last_bit const ha
    unfold forEachBitReverse
    simp only [bind, Option.bind, e]
    refine walk_down (fun i hi => ?_) (bits + 1) r bits h (by omega) (by omega)
    obtain ⟨r, e, h1, h2⟩ := find_prev_bit const ((i + (2 ^ 32 - 1)) % 2 ^ 32) ha hb
    refine ⟨r, e, ?_⟩
    by_cases h0 : i = 0
    · subst h0
      exact Or.inr ⟨h2 (by omega), by omega⟩
    · have e : (i + (2 ^ 32 - 1)) % 2 ^ 32 = i - 1 := by omega
      rw [e] at h1
      have := h1 (by omega)
      rwa [show i - 1 + 1 = i by omega] at this

example : forEachBit false [0x8000000000000005#64, 0x2#64] 0 70 = some [0, 2, 63, 65] ∧ forEachBitReverse true [0x15#64] 0 4 = some [2, 0] := by decide +kernel

example : 0 + words 70 ≤ [0x8000000000000005#64, 0x2#64].length ∧ findNextBit false [0x8000000000000005#64, 0x2#64] 0 70 3 = some 63 ∧
    findPrevAndBit false [0x8000000000000005#64, 0x2#64, 0x7#64, 0#64] 0 2 70 69 = some 2 := by decide +kernel

end Bfdev.Bitmap

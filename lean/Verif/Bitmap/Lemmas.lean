import Verif.Bitmap.Spec
import Verif.Scan.Props
set_option linter.unusedSimpArgs false
namespace Bfdev.Bitmap
open Bfdev.Scan (Word lowMask highMask bit bitRange ffsuf flsuf ffzuf flzuf IsFirst IsLast)

theorem rd_some {m : Mem} {a : Nat} (h : a < m.length) : rd m a = some (m[a]?.getD 0) := by
  simp [rd, h]

theorem wr_some {m : Mem} {a : Nat} (v : Word) (h : a < m.length) : wr m a v = some (m.set a v) := by simp [wr, h]

theorem lowMask_bit (n i : Nat) (hn : n % 64 ≠ 0) : (lowMask n).getLsbD i = decide (i < n % 64) := by
  have e : lowMask n = lowMask (n % 64) := by simp [lowMask]
  rw [e]
  exact Scan.masks_correct.1 _ _ (by omega) (by omega)

theorem lowMask_full (n : Nat) (hn : n % 64 = 0) : lowMask n = BitVec.allOnes 64 := by simp [lowMask, hn]

theorem highMask_bit (n i : Nat) : (highMask n).getLsbD i = decide (n % 64 ≤ i ∧ i < 64) := by
  have e : highMask n = highMask (n % 64) := by simp [highMask]
  rw [e]
  exact Scan.masks_correct.2.1 _ _ (by omega)

theorem bit_bit (n i : Nat) : (bit n).getLsbD i = decide (i = n % 64) := by
  have e : bit n = bit (n % 64) := by simp [bit]
  rw [e]
  exact Scan.masks_correct.2.2.1 _ _ (by omega)

theorem word_ne_zero (v : Word) : v ≠ 0 ↔ ∃ i, i < 64 ∧ v.getLsbD i = true := by
  rw [Scan.ne_zero_iff]
  exact ⟨fun ⟨i, h⟩ => ⟨i, BitVec.lt_of_getLsbD h, h⟩, fun ⟨i, _, h⟩ => ⟨i, h⟩⟩

theorem word_eq_zero (v : Word) : v = 0 ↔ ∀ i, i < 64 → v.getLsbD i = false := by
  constructor
  · rintro rfl; simp
  · intro h
    apply Classical.byContradiction
    intro hc
    obtain ⟨i, h1, h2⟩ := (word_ne_zero v).1 hc
    rw [h i h1] at h2; cases h2

theorem words_div {bits i : Nat} (h : i < words bits) : i < bits / 64 ∨ (i = bits / 64 ∧ bits % 64 ≠ 0) := by
  unfold words at h; omega

/-! ### comparisons -/

theorem scanLoop_eq {stop : Nat → Option Bool} {b : Nat → Bool} : ∀ (n i : Nat), (∀ k, i ≤ k → k < i + n → stop k = some (b k)) →
    ∃ r, scanLoop stop n i = some r ∧ (r = true ↔ ∃ k, i ≤ k ∧ k < i + n ∧ b k = true) := by
  intro n
  induction n with
  | zero => intro i _; exact ⟨false, rfl, by simp; omega⟩
  | succ n ih =>
    intro i h
    rw [scanLoop, h i (Nat.le_refl _) (by omega)]
    cases hb : b i with
    | true => exact ⟨true, rfl, by simp only [true_iff]; exact ⟨i, Nat.le_refl _, by omega, hb⟩⟩
    | false =>
      obtain ⟨r, e, hr⟩ := ih (i + 1) (fun k h1 h2 => h k (by omega) (by omega))
      refine ⟨r, by simpa using e, hr.trans ⟨fun ⟨k, a, b, c⟩ => ⟨k, by omega, by omega, c⟩, fun ⟨k, a, b', c⟩ => ⟨k, ?_, by omega, c⟩⟩⟩
      rcases Nat.lt_or_ge i k with h1 | h1
      · exact h1
      · have : k = i := by omega
        subst this; rw [hb] at c; cases c

/-- Any bit set among the first `bits` of the words `w`. -/
theorem any_words {w : Nat → Word} {bits : Nat} :
    ((∃ k, k < bits / 64 ∧ w k ≠ 0) ∨ (bits % 64 ≠ 0 ∧ w (bits / 64) &&& lowMask bits ≠ 0)) ↔ ∃ i, i < bits ∧ (w (i / 64)).getLsbD (i % 64) = true := by
  constructor
  · rintro (⟨k, h1, h2⟩ | ⟨h1, h2⟩)
    · obtain ⟨j, hj, e⟩ := (word_ne_zero _).1 h2
      exact ⟨64 * k + j, by omega, by rw [show (64 * k + j) / 64 = k by omega, show (64 * k + j) % 64 = j by omega]; exact e⟩
    · obtain ⟨j, hj, e⟩ := (word_ne_zero _).1 h2
      rw [BitVec.getLsbD_and, lowMask_bit _ _ h1, Bool.and_eq_true, decide_eq_true_eq] at e
      exact ⟨64 * (bits / 64) + j, by omega, by
        rw [show (64 * (bits / 64) + j) / 64 = bits / 64 by omega, show (64 * (bits / 64) + j) % 64 = j by omega]; exact e.1⟩
  · rintro ⟨i, h1, h2⟩
    by_cases hk : i / 64 < bits / 64
    · exact Or.inl ⟨_, hk, (word_ne_zero _).2 ⟨_, Nat.mod_lt _ (by omega), h2⟩⟩
    · have e : i / 64 = bits / 64 := by omega
      have hm : bits % 64 ≠ 0 := by omega
      refine Or.inr ⟨hm, (word_ne_zero _).2 ⟨i % 64, Nat.mod_lt _ (by omega), ?_⟩⟩
      rw [BitVec.getLsbD_and, lowMask_bit _ _ hm, ← e, h2]
      simp; omega

theorem bitOf_word (m : Mem) (s i : Nat) : ((m[s + i / 64]?).getD 0).getLsbD (i % 64) = bitOf m s i := rfl

theorem inside_lt {m : Mem} {s bits i : Nat} (h : Inside m s bits) (hi : i < words bits) : s + i < m.length := by
  unfold Inside at h; omega

theorem inside_lt' {m : Mem} {s bits : Nat} (h : Inside m s bits) (hm : bits % 64 ≠ 0) : s + bits / 64 < m.length :=
  inside_lt h (by unfold words; omega)

/-! ### element-wise operations -/

theorem fullWords_eq {val : Mem → Nat → Option Word} {w : Nat → Word} {d : Nat} {m0 : Mem} : ∀ (n i : Nat) (m : Mem) (res : Word),
    d + (i + n) ≤ m0.length →
    (∀ k m', i ≤ k → k < i + n → m'.length = m0.length → (∀ a, (a < d ∨ d + k ≤ a) → m'[a]? = m0[a]?) → val m' k = some (w k)) →
    m.length = m0.length → (∀ a, m[a]? = if d ≤ a ∧ a < d + i then some (w (a - d)) else m0[a]?) →
    ∃ m' res', fullWords val d n i m res = some (m', res') ∧ m'.length = m0.length ∧
      (∀ a, m'[a]? = if d ≤ a ∧ a < d + (i + n) then some (w (a - d)) else m0[a]?) ∧
      (res' ≠ 0 ↔ res ≠ 0 ∨ ∃ k, i ≤ k ∧ k < i + n ∧ w k ≠ 0) := by
  intro n
  induction n with
  | zero => intro i m res _ _ hl hm; exact ⟨m, res, rfl, hl, hm, by simp; omega⟩
  | succ n ih =>
    intro i m res hin hv hl hm
    have e1 := hv i m (Nat.le_refl _) (by omega) hl (fun a ha => by rw [hm a, if_neg (by omega)])
    have hlt : d + i < m.length := by omega
    obtain ⟨m', res', e, l', h', r'⟩ := ih (i + 1) (m.set (d + i) (w i)) (res ||| w i) (by omega)
      (fun k m' a b c d => hv k m' (by omega) (by omega) c d) (by simpa using hl) (by
        intro a
        rw [List.getElem?_set]
        by_cases h : d + i = a
        · subst h; rw [if_pos rfl, if_pos hlt, if_pos (by omega)]; exact congrArg some (congrArg w (by omega))
        · rw [if_neg h, hm a]; split
          · rw [if_pos (by omega)]
          · rw [if_neg (by omega)])
    refine ⟨m', res', ?_, l', fun a => ?_, ?_⟩
    · rw [fullWords, e1]
      simp only [bind, Option.bind, wr_some _ hlt]
      exact e
    · rw [h' a, show i + 1 + n = i + (n + 1) by omega]
    · rw [r']
      have hor : res ||| w i ≠ 0 ↔ res ≠ 0 ∨ w i ≠ 0 := by
        rw [word_ne_zero, word_ne_zero, word_ne_zero]
        simp only [BitVec.getLsbD_or, Bool.or_eq_true]
        grind
      rw [hor]
      constructor
      · rintro ((h | h) | ⟨k, a, b, c⟩)
        · exact Or.inl h
        · exact Or.inr ⟨i, Nat.le_refl _, by omega, h⟩
        · exact Or.inr ⟨k, by omega, by omega, c⟩
      · rintro (h | ⟨k, a, b, c⟩)
        · exact Or.inl (Or.inl h)
        · rcases Nat.lt_or_ge i k with hk | hk
          · exact Or.inr ⟨k, by omega, by omega, c⟩
          · have : k = i := by omega
            subst this; exact Or.inl (Or.inr c)

theorem comp_eq {val : Mem → Nat → Option Word} {w : Nat → Word} {m : Mem} {d bits : Nat} (hd : Inside m d bits)
    (hv : ∀ k m', k < words bits → m'.length = m.length → (∀ a, (a < d ∨ d + k ≤ a) → m'[a]? = m[a]?) → val m' k = some (w k)) :
    ∃ m' res, comp val m d bits = some (m', res) ∧ Writes m m' d bits (fun i => (w (i / 64)).getLsbD (i % 64)) ∧
      (res ≠ 0 ↔ ∃ i, i < bits ∧ (w (i / 64)).getLsbD (i % 64) = true) := by
  have hd' := hd
  unfold Inside words at hd'
  obtain ⟨m1, r1, e1, l1, h1, hr1⟩ := fullWords_eq (val := val) (w := w) (d := d) (m0 := m) (bits / 64) 0 m 0 (by omega)
    (fun k m' _ hk hl ha => hv k m' (by unfold words; omega) hl ha) rfl (fun a => by rw [if_neg (by omega)])
  have hr1' : r1 ≠ 0 ↔ ∃ k, k < bits / 64 ∧ w k ≠ 0 := by
    rw [hr1]; simp
  unfold comp
  simp only [bind, Option.bind, e1]
  by_cases hm : bits % 64 = 0
  · refine ⟨m1, r1, by simp [hm], ⟨⟨l1, fun a ha => ?_⟩, fun i hi => ?_⟩, ?_⟩
    · rw [h1 a, if_neg (by unfold words at ha; omega)]
    · have hi' : i < bits := by unfold words at hi; omega
      rw [← bitOf_word, h1, if_pos (by omega)]
      simp only [hi', decide_true, Bool.true_and, Option.getD_some]
      rw [show d + i / 64 - d = i / 64 by omega]
    · rw [hr1', ← any_words]
      simp [hm]
  · have e2 := hv (bits / 64) m1 (by unfold words; omega) l1 (fun a ha => by rw [h1 a, if_neg (by omega)])
    have hlt : d + bits / 64 < m1.length := by omega
    refine ⟨m1.set (d + bits / 64) (w (bits / 64) &&& lowMask bits), r1 ||| (w (bits / 64) &&& lowMask bits), ?_, ⟨⟨by simpa using l1, fun a ha => ?_⟩, fun i hi => ?_⟩, ?_⟩
    · simp only [ne_eq, hm, not_false_eq_true, if_true, e2, wr_some _ hlt]; rfl
    · rw [List.getElem?_set, if_neg (by unfold words at ha; omega), h1 a, if_neg (by unfold words at ha; omega)]
    · rw [← bitOf_word, List.getElem?_set]
      by_cases hk : i / 64 = bits / 64
      · rw [if_pos (by omega), if_pos hlt, Option.getD_some, BitVec.getLsbD_and, lowMask_bit _ _ hm, ← hk, Bool.and_comm]
        congr 1
        simp only [decide_eq_decide]; omega
      · have hi' : i < bits := by unfold words at hi; omega
        rw [if_neg (by omega), h1, if_pos (by omega)]
        simp only [hi', decide_true, Bool.true_and, Option.getD_some]
        rw [show d + i / 64 - d = i / 64 by omega]
    · rw [← any_words, ← hr1']
      rw [word_ne_zero, word_ne_zero, word_ne_zero]
      simp only [BitVec.getLsbD_or, Bool.or_eq_true]
      grind

/-- Reading a source that is either the destination itself or elsewhere. -/
theorem src_rd {m m' : Mem} {d s bits k : Nat} (hs : Inside m s bits) (ho : NoOverlap d s bits) (hk : k < words bits) (hl : m'.length = m.length)
    (ha : ∀ a, (a < d ∨ d + k ≤ a) → m'[a]? = m[a]?) : rd m' (s + k) = some (m[s + k]?.getD 0) := by
  have hlt := inside_lt hs hk
  rw [rd_some (by omega), ha]
  unfold NoOverlap at ho
  omega

end Bfdev.Bitmap

import Verif.Bitmap.LogicProps
/-!
C46: shifts.
-/
set_option linter.unusedSimpArgs false
namespace Bfdev.Bitmap
open Bfdev.Scan (Word lowMask highMask bit)

theorem zeroWords_eq : ∀ (n : Nat) (m : Mem) (d : Nat), d + n ≤ m.length →
    ∃ m', zeroWords n m d = some m' ∧ m'.length = m.length ∧ ∀ a, m'[a]? = if d ≤ a ∧ a < d + n then some 0 else m[a]? := by
  intro n
  induction n with
  | zero => intro m d _; exact ⟨m, rfl, rfl, fun a => by rw [if_neg (by omega)]⟩
  | succ n ih =>
    intro m d h
    obtain ⟨m', e, hl, ha⟩ := ih (m.set d 0) (d + 1) (by simp; omega)
    refine ⟨m', ?_, by simpa using hl, fun a => ?_⟩
    · unfold zeroWords
      rw [wr_some _ (by omega)]
      exact e
    · rw [ha, List.getElem?_set]
      by_cases h1 : d + 1 ≤ a ∧ a < d + 1 + n
      · rw [if_pos h1, if_pos (by omega)]
      · rw [if_neg h1]
        by_cases h2 : d = a
        · rw [if_pos h2, if_pos (by omega), if_pos (by omega)]
        · rw [if_neg h2, if_neg (by omega)]

/-- Memory after word `k` of the destination was given the value `W k` for all `k`. -/
theorem writes_of_words {m m' : Mem} {d bits : Nat} {f : Nat → Bool} {W : Nat → Word} (hl : m'.length = m.length)
    (h : ∀ a, m'[a]? = if d ≤ a ∧ a < d + words bits then some (W (a - d)) else m[a]?)
    (hW : ∀ k j, k < words bits → j < 64 → (W k).getLsbD j = (decide (64 * k + j < bits) && f (64 * k + j))) : Writes m m' d bits f := by
  refine ⟨⟨hl, fun a ha => by rw [h, if_neg (by omega)]⟩, fun i hi => ?_⟩
  rw [← bitOf_word, h, if_pos (by omega), Option.getD_some, show d + i / 64 - d = i / 64 by omega, hW _ _ (by omega) (Nat.mod_lt _ (by omega)),
    show 64 * (i / 64) + i % 64 = i by omega]

theorem exists_word : ∀ (w : Nat) (f : Nat → Bool), ∃ v : BitVec w, ∀ j, j < w → v.getLsbD j = f j := by
  intro w f
  induction w with
  | zero => exact ⟨0, fun j h => absurd h (Nat.not_lt_zero _)⟩
  | succ w ih =>
    obtain ⟨v, hv⟩ := ih
    refine ⟨BitVec.cons (f w) v, fun j hj => ?_⟩
    rw [BitVec.getLsbD_cons]
    by_cases h : j = w
    · rw [if_pos h, h]
    · rw [if_neg h, hv j (by omega)]

/-! ### Left -/

theorem shlWord_some {m m0 : Mem} {s rem k : Nat} (hr : rem < 64) (hl : m.length = m0.length) (hlt : s + k < m0.length)
    (h1 : m[s + k]? = m0[s + k]?) (h2 : k ≠ 0 → m[s + (k - 1)]? = m0[s + (k - 1)]?) :
    ∃ v, shlWord m s rem k = some v ∧ ∀ j, j < 64 → v.getLsbD j = (decide (rem ≤ 64 * k + j) && bitOf m0 s (64 * k + j - rem)) := by
  unfold shlWord
  rw [rd_some (by omega), h1]
  simp only [bind, Option.bind]
  have hA : ∀ j, j < 64 → rem ≤ j → (m0[s + k]?.getD 0).getLsbD (j - rem) = bitOf m0 s (64 * k + j - rem) := by
    intro j hj hrj
    unfold bitOf
    rw [show (64 * k + j - rem) / 64 = k by omega, show (64 * k + j - rem) % 64 = j - rem by omega]
  by_cases hc : rem ≠ 0 ∧ k ≠ 0
  · rw [if_pos hc, rd_some (by omega), h2 hc.2]
    refine ⟨_, rfl, fun j hj => ?_⟩
    rw [BitVec.getLsbD_or, BitVec.getLsbD_shiftLeft, BitVec.getLsbD_ushiftRight]
    have hB : j < rem → (m0[s + (k - 1)]?.getD 0).getLsbD (64 - rem + j) = bitOf m0 s (64 * k + j - rem) := by
      intro hrj
      unfold bitOf
      rw [show (64 * k + j - rem) / 64 = k - 1 by omega, show (64 * k + j - rem) % 64 = 64 - rem + j by omega]
    by_cases hrj : j < rem
    · rw [hB hrj]
      have : rem ≤ 64 * k + j := by omega
      simp [hrj, this]
    · rw [hA j hj (by omega), BitVec.getLsbD_of_ge _ (64 - rem + j) (by omega)]
      have : rem ≤ 64 * k + j := by omega
      simp [hj, hrj, this]
  · rw [if_neg hc]
    refine ⟨_, rfl, fun j hj => ?_⟩
    rw [BitVec.getLsbD_or, BitVec.getLsbD_shiftLeft, show (0 : Word).getLsbD j = false by simp, Bool.or_false]
    by_cases hrj : j < rem
    · have : ¬ rem ≤ 64 * k + j := by omega
      simp [hrj, this]
    · rw [hA j hj (by omega)]
      have : rem ≤ 64 * k + j := by omega
      simp [hj, hrj, this]

theorem shlLoop_eq {m0 : Mem} {d s rem offset len : Nat} {W : Nat → Word} (hr : rem < 64) (hs : s + len ≤ m0.length) (hd : d + len ≤ m0.length)
    (ho : s ≤ d ∨ d + len ≤ s) :
    ∀ (n len' : Nat) (m : Mem), n + offset = len' → len' ≤ len → m.length = m0.length →
    (∀ k, k < n → ∀ j, j < 64 → (decide (rem ≤ 64 * k + j) && bitOf m0 s (64 * k + j - rem)) = (W (k + offset)).getLsbD j) →
    (∀ a, m[a]? = if d + len' ≤ a ∧ a < d + len then some (W (a - d)) else m0[a]?) →
    ∃ m', shlLoop d s rem offset n m = some m' ∧ m'.length = m0.length ∧
      ∀ a, m'[a]? = if d + offset ≤ a ∧ a < d + len then some (W (a - d)) else m0[a]? := by
  intro n
  induction n with
  | zero => intro len' m h1 h2 hl _ ha; exact ⟨m, rfl, hl, by simpa [← h1] using ha⟩
  | succ n ih =>
    intro len' m h1 h2 hl hW ha
    obtain ⟨v, e, hv⟩ := shlWord_some (m := m) (m0 := m0) (s := s) (k := n) hr hl (by omega) (by rw [ha, if_neg (by omega)]) (fun _ => by rw [ha, if_neg (by omega)])
    have ev : v = W (n + offset) := BitVec.eq_of_getLsbD_eq (fun j hj => by rw [hv j hj, hW n (by omega) j hj])
    unfold shlLoop
    rw [e]
    simp only [bind, Option.bind]
    rw [wr_some _ (by omega), ev]
    refine ih (n + offset) _ rfl (by omega) (by simpa using hl) (fun k hk => hW k (by omega)) (fun a => ?_)
    rw [List.getElem?_set]
    by_cases h : d + (n + offset) = a
    · rw [if_pos h, if_pos (by omega), if_pos (by omega), show a - d = n + offset by omega]
    · rw [if_neg h, ha]
      congr 1
      apply propext
      omega

/-- C46: left shift, for a destination at or above the source, or apart from it. -/
theorem compShl_eq {m : Mem} {d s shift bits : Nat} (hd : Inside m d bits) (hs : Inside m s bits) (hb : bits ≤ 2 ^ 32 - 64)
    (ho : s ≤ d ∨ d + words bits ≤ s) :
    ∃ m', compShl m d s shift bits = some m' ∧ Writes m m' d bits (fun i => decide (shift ≤ i) && bitOf m s (i - shift)) := by
  have hlen : bitsToLong bits = words bits := by unfold bitsToLong words; omega
  have hd0 := hd
  have hs0 := hs
  unfold Inside at hd hs
  have hwb : 64 * words bits < bits + 64 := by unfold words; omega
  have hbw : bits ≤ 64 * words bits := by unfold words; omega
  have hbm : bits % 64 ≠ 0 → bits / 64 + 1 = words bits := by unfold words; omega
  have hbz : bits % 64 = 0 → bits = 64 * words bits := by unfold words; omega
  unfold compShl
  simp only [hlen]
  by_cases hof : words bits ≤ shift / 64
  · rw [if_pos hof]
    obtain ⟨m', e, hl, ha⟩ := zeroWords_eq (words bits) m d hd
    refine ⟨m', e, writes_of_words (W := fun _ => 0) hl ha (fun k j hk hj => ?_)⟩
    have : ¬ shift ≤ 64 * k + j := by omega
    simp [this]
  · rw [if_neg hof]
    have hrem : shift % 64 < 64 := Nat.mod_lt _ (by omega)
    have target : ∃ W : Nat → Word, ∀ k j, k < words bits → j < 64 → (W k).getLsbD j = (decide (64 * k + j < bits) && (decide (shift ≤ 64 * k + j) && bitOf m s (64 * k + j - shift))) := by
      have h := fun k => exists_word 64 (fun j => decide (64 * k + j < bits) && (decide (shift ≤ 64 * k + j) && bitOf m s (64 * k + j - shift)))
      exact ⟨fun k => (h k).choose, fun k j _ hj => (h k).choose_spec j hj⟩
    obtain ⟨W, hW⟩ := target
    -- full words have the value of the loop
    have hfull : ∀ k, k + shift / 64 < bits / 64 → ∀ j, j < 64 →
        (decide (shift % 64 ≤ 64 * k + j) && bitOf m s (64 * k + j - shift % 64)) = (W (k + shift / 64)).getLsbD j := by
      intro k hk j hj
      rw [hW _ _ (by omega) hj]
      have h1 : 64 * (k + shift / 64) + j < bits := by omega
      rw [show decide (64 * (k + shift / 64) + j < bits) = true by simp [h1], Bool.true_and,
        show 64 * (k + shift / 64) + j - shift = 64 * k + j - shift % 64 by omega]
      congr 1
      rw [decide_eq_decide]
      omega
    have step1 : ∃ m1, shlTail m d s (shift % 64) (shift / 64) (words bits - shift / 64) bits = some (m1, bits / 64 - shift / 64) ∧ m1.length = m.length ∧
        (∀ a, m1[a]? = if d + bits / 64 ≤ a ∧ a < d + words bits then some (W (a - d)) else m[a]?) := by
      unfold shlTail
      by_cases hm : bits % 64 ≠ 0
      · rw [if_pos hm]
        have := hbm hm
        have hx : words bits - shift / 64 - 1 = bits / 64 - shift / 64 := by omega
        rw [hx]
        obtain ⟨v, e, hv⟩ := shlWord_some (m := m) (m0 := m) (s := s) (k := bits / 64 - shift / 64) hrem rfl (by omega) rfl (fun _ => rfl)
        rw [e]
        simp only [bind, Option.bind]
        rw [wr_some _ (by omega)]
        refine ⟨_, rfl, by simp, fun a => ?_⟩
        rw [List.getElem?_set]
        by_cases ha : d + (bits / 64 - shift / 64 + shift / 64) = a
        · rw [if_pos ha, if_pos (by omega), if_pos (by omega)]
          refine congrArg some (BitVec.eq_of_getLsbD_eq (fun j hj => ?_))
          rw [BitVec.getLsbD_and, hv j hj, lowMask_bit _ _ hm, show a - d = bits / 64 by omega, hW _ _ (by omega) hj, Bool.and_comm]
          have e1 : 64 * (bits / 64 - shift / 64) + j - shift % 64 = 64 * (bits / 64) + j - shift := by omega
          rw [e1]
          have e2 : decide (j < bits % 64) = decide (64 * (bits / 64) + j < bits) := by rw [decide_eq_decide]; omega
          have e3 : decide (shift % 64 ≤ 64 * (bits / 64 - shift / 64) + j) = decide (shift ≤ 64 * (bits / 64) + j) := by rw [decide_eq_decide]; omega
          rw [e2, e3]
        · rw [if_neg ha, if_neg (by omega)]
      · rw [if_neg hm]
        have := hbz (by omega)
        exact ⟨m, by rw [show bits / 64 = words bits by omega], rfl, fun a => by rw [if_neg (by omega)]⟩
    obtain ⟨m1, e1, hl1, ha1⟩ := step1
    simp only [bind, Option.bind]
    rw [e1]
    simp only
    by_cases hidx : shift / 64 ≤ bits / 64
    · obtain ⟨m2, e2, hl2, ha2⟩ := shlLoop_eq (m0 := m) (d := d) (s := s) (offset := shift / 64) (len := words bits) (W := W) hrem hs hd ho
        (bits / 64 - shift / 64) (bits / 64) m1 (by omega) (by omega) hl1
        (fun k hk j hj => hfull k (by omega) j hj) ha1
      rw [e2]
      simp only
      obtain ⟨m3, e3, hl3, ha3⟩ : ∃ m3, shiftFill m2 d (shift / 64) = some m3 ∧ m3.length = m.length ∧
          ∀ a, m3[a]? = if d ≤ a ∧ a < d + words bits then some (W (a - d)) else m[a]? := by
        unfold shiftFill
        by_cases h0 : shift / 64 ≠ 0
        · rw [if_pos h0]
          obtain ⟨m3, e3, hl3, ha3⟩ := zeroWords_eq (shift / 64) m2 d (by omega)
          refine ⟨m3, e3, by omega, fun a => ?_⟩
          rw [ha3]
          by_cases h1 : d ≤ a ∧ a < d + shift / 64
          · rw [if_pos h1, if_pos (by omega)]
            refine congrArg some (BitVec.eq_of_getLsbD_eq (fun j hj => ?_))
            rw [hW _ _ (by omega) hj]
            have : ¬ shift ≤ 64 * (a - d) + j := by omega
            simp [this]
          · rw [if_neg h1, ha2]
            congr 1
            apply propext
            omega
        · rw [if_neg h0]
          refine ⟨m2, rfl, hl2, fun a => ?_⟩
          rw [ha2]
          congr 1
          apply propext
          omega
      exact ⟨m3, e3, writes_of_words hl3 ha3 hW⟩
    · omega

/-! ### Right -/

theorem shrHigh_some {m m0 : Mem} {s rem offset len k : Nat} (hr : rem < 64) (hl : m.length = m0.length) (hlen : s + len ≤ m0.length)
    (h1 : k + offset + 1 < len → m[s + (k + offset + 1)]? = m0[s + (k + offset + 1)]?) :
    ∃ v, shrHigh m s rem offset len k = some v ∧
      ∀ j, j < 64 → v.getLsbD j = (decide (64 ≤ j + rem ∧ k + offset + 1 < len) && bitOf m0 s (64 * (k + offset) + j + rem)) := by
  unfold shrHigh
  by_cases hc : rem ≠ 0 ∧ k + offset + 1 < len
  · rw [if_pos hc, rd_some (by omega), h1 hc.2]
    refine ⟨_, rfl, fun j hj => ?_⟩
    rw [BitVec.getLsbD_shiftLeft]
    by_cases h : 64 ≤ j + rem
    · have e : (m0[s + (k + offset + 1)]?.getD 0).getLsbD (j - (64 - rem)) = bitOf m0 s (64 * (k + offset) + j + rem) := by
        unfold bitOf
        rw [show (64 * (k + offset) + j + rem) / 64 = k + offset + 1 by omega, show (64 * (k + offset) + j + rem) % 64 = j - (64 - rem) by omega]
      rw [e]
      have : ¬ j < 64 - rem := by omega
      simp [hj, h, this, hc.2]
    · have : j < 64 - rem := by omega
      simp [hj, h, this]
  · rw [if_neg hc]
    refine ⟨0, rfl, fun j hj => ?_⟩
    have : ¬ (64 ≤ j + rem ∧ k + offset + 1 < len) := by omega
    simp [this]

theorem shrLoop_eq {m0 : Mem} {d s rem offset len top : Nat} {W : Nat → Word} (hr : rem < 64) (hs : s + len ≤ m0.length) (hd : d + len ≤ m0.length)
    (ho : d ≤ s ∨ s + len ≤ d) (htop : top + offset ≤ len)
    (hW : ∀ k, k < top → ∀ j, j < 64 → (W k).getLsbD j =
      (decide (j + rem < 64 ∨ k + offset + 1 < len) && bitOf m0 s (64 * (k + offset) + j + rem))) :
    ∀ (n i : Nat) (m : Mem), n + i = top → m.length = m0.length →
    (∀ a, m[a]? = if d ≤ a ∧ a < d + i then some (W (a - d)) else m0[a]?) →
    ∃ m', shrLoop d s rem offset len n i m = some m' ∧ m'.length = m0.length ∧
      ∀ a, m'[a]? = if d ≤ a ∧ a < d + top then some (W (a - d)) else m0[a]? := by
  intro n
  induction n with
  | zero => intro i m h1 hl ha; exact ⟨m, rfl, hl, by simpa [← h1] using ha⟩
  | succ n ih =>
    intro i m h1 hl ha
    obtain ⟨v, e, hv⟩ := shrHigh_some (m := m) (m0 := m0) (s := s) (offset := offset) (len := len) (k := i) hr hl hs (fun h => by rw [ha, if_neg (by omega)])
    unfold shrLoop
    rw [rd_some (by omega)]
    simp only [bind, Option.bind]
    rw [e]
    simp only
    rw [wr_some _ (by omega)]
    have ev : v ||| (m[s + (i + offset)]?.getD 0) >>> rem = W i := BitVec.eq_of_getLsbD_eq (fun j hj => by
      rw [hW i (by omega) j hj, BitVec.getLsbD_or, hv j hj, BitVec.getLsbD_ushiftRight, ha, if_neg (by omega)]
      by_cases h : j + rem < 64
      · have e2 : (m0[s + (i + offset)]?.getD 0).getLsbD (rem + j) = bitOf m0 s (64 * (i + offset) + j + rem) := by
          unfold bitOf
          rw [show (64 * (i + offset) + j + rem) / 64 = i + offset by omega, show (64 * (i + offset) + j + rem) % 64 = rem + j by omega]
        rw [e2]
        have : ¬ 64 ≤ j + rem := by omega
        simp [h, this]
      · rw [BitVec.getLsbD_of_ge _ (rem + j) (by omega)]
        have : 64 ≤ j + rem := by omega
        simp [h, this])
    rw [ev]
    refine ih (i + 1) _ (by omega) (by simpa using hl) (fun a => ?_)
    rw [List.getElem?_set]
    by_cases h : d + i = a
    · rw [if_pos h, if_pos (by omega), if_pos (by omega), show a - d = i by omega]
    · rw [if_neg h, ha]
      congr 1
      apply propext
      omega

/-- C46: right shift, for whole words, for a zero shift, or for a shift by the whole length; the destination is at or below the source,
or apart from it. Missing: other bit counts, for which the claim is false (`shr_violated`). -/
theorem compShr_partial {m : Mem} {d s shift bits : Nat} (hd : Inside m d bits) (hs : Inside m s bits) (hb : bits ≤ 2 ^ 32 - 64)
    (ho : d ≤ s ∨ s + words bits ≤ d) (hg : bits % 64 = 0 ∨ shift = 0 ∨ words bits ≤ shift / 64) :
    ∃ m', compShr m d s shift bits = some m' ∧ Writes m m' d bits (fun i => decide (i + shift < bits) && bitOf m s (i + shift)) := by
  have hlen : bitsToLong bits = words bits := by unfold bitsToLong words; omega
  have hd0 := hd
  have hs0 := hs
  unfold Inside at hd hs
  have hwb : 64 * words bits < bits + 64 := by unfold words; omega
  have hbw : bits ≤ 64 * words bits := by unfold words; omega
  have hbm : bits % 64 ≠ 0 → bits / 64 + 1 = words bits := by unfold words; omega
  have hbz : bits % 64 = 0 → bits = 64 * words bits := by unfold words; omega
  unfold compShr
  simp only [hlen]
  by_cases hof : words bits ≤ shift / 64
  · rw [if_pos hof]
    obtain ⟨m', e, hl, ha⟩ := zeroWords_eq (words bits) m d hd
    refine ⟨m', e, writes_of_words (W := fun _ => 0) hl ha (fun k j hk hj => ?_)⟩
    have : ¬ 64 * k + j + shift < bits := by omega
    simp [this]
  · rw [if_neg hof]
    have hrem : shift % 64 < 64 := Nat.mod_lt _ (by omega)
    have hg' : bits % 64 = 0 ∨ shift = 0 := by omega
    have target : ∃ W : Nat → Word, ∀ k j, k < words bits → j < 64 → (W k).getLsbD j = (decide (64 * k + j < bits) && (decide (64 * k + j + shift < bits) && bitOf m s (64 * k + j + shift))) := by
      have h := fun k => exists_word 64 (fun j => decide (64 * k + j < bits) && (decide (64 * k + j + shift < bits) && bitOf m s (64 * k + j + shift)))
      exact ⟨fun k => (h k).choose, fun k j _ hj => (h k).choose_spec j hj⟩
    obtain ⟨W, hW⟩ := target
    obtain ⟨m1, e1, hl1, ha1⟩ := shrLoop_eq (m0 := m) (d := d) (s := s) (rem := shift % 64) (offset := shift / 64) (len := words bits) (top := bits / 64 - shift / 64) (W := W) hrem hs hd ho (by omega)
      (by
        intro k hk j hj
        rw [hW _ _ (by omega) hj, show 64 * (k + shift / 64) + j + shift % 64 = 64 * k + j + shift by omega, ← Bool.and_assoc]
        congr 1
        rw [← Bool.decide_and, decide_eq_decide]
        rcases hg' with h | h
        · have := hbz h; omega
        · subst h
          have : 64 * k + j < bits := by omega
          simp only [Nat.zero_div, Nat.zero_mod, Nat.add_zero, this, and_self, true_iff]
          exact Or.inl hj)
      (bits / 64 - shift / 64) 0 m (by omega) rfl (fun a => by rw [if_neg (by omega)])
    simp only [bind, Option.bind]
    rw [e1]
    simp only
    by_cases hm : bits % 64 = 0
    · have hbw2 := hbz hm
      have hz : shrTail m1 d s (shift % 64) (shift / 64) (words bits) (bits / 64 - shift / 64) bits = some m1 := by
        unfold shrTail; rw [if_neg (by simpa using hm)]
      rw [hz]
      simp only
      obtain ⟨m3, e3, hl3, ha3⟩ : ∃ m3, shiftFill m1 (d + (words bits - shift / 64)) (shift / 64) = some m3 ∧ m3.length = m.length ∧
          ∀ a, m3[a]? = if d ≤ a ∧ a < d + words bits then some (W (a - d)) else m[a]? := by
        unfold shiftFill
        by_cases h0 : shift / 64 ≠ 0
        · rw [if_pos h0]
          obtain ⟨m3, e3, hl3, ha3⟩ := zeroWords_eq (shift / 64) m1 (d + (words bits - shift / 64)) (by omega)
          refine ⟨m3, e3, by omega, fun a => ?_⟩
          rw [ha3]
          by_cases h1 : d + (words bits - shift / 64) ≤ a ∧ a < d + (words bits - shift / 64) + shift / 64
          · rw [if_pos h1, if_pos (by omega)]
            refine congrArg some (BitVec.eq_of_getLsbD_eq (fun j hj => ?_))
            rw [hW _ _ (by omega) hj]
            have : ¬ 64 * (a - d) + j + shift < bits := by omega
            simp [this]
          · rw [if_neg h1, ha1]
            congr 1
            apply propext
            omega
        · rw [if_neg h0]
          refine ⟨m1, rfl, hl1, fun a => ?_⟩
          rw [ha1]
          congr 1
          apply propext
          omega
      exact ⟨m3, e3, writes_of_words hl3 ha3 hW⟩
    · have h0 : shift = 0 := hg'.resolve_left hm
      subst h0
      have hbm' := hbm hm
      have hz : shrTail m1 d s (0 % 64) (0 / 64) (words bits) (bits / 64 - 0 / 64) bits = some (m1.set (d + bits / 64) (m1[s + bits / 64]?.getD 0 &&& lowMask bits)) := by
        unfold shrTail shrHigh
        rw [if_pos (by simpa using hm)]
        simp only [bind, Option.bind, Nat.zero_div, Nat.zero_mod, Nat.sub_zero, Nat.add_zero, BitVec.shiftLeft_zero]
        rw [rd_some (by omega)]
        simp only [ne_eq, not_true, false_and, if_false]
        rw [wr_some _ (by omega)]
        simp
      rw [hz]
      refine ⟨_, rfl, writes_of_words (W := W) (by simpa using hl1) (fun a => ?_) hW⟩
      rw [List.getElem?_set]
      by_cases h : d + bits / 64 = a
      · rw [if_pos h, if_pos (by omega), if_pos (by omega), ha1, if_neg (by omega)]
        refine congrArg some (BitVec.eq_of_getLsbD_eq (fun j hj => ?_))
        rw [hW _ _ (by omega) hj, BitVec.getLsbD_and, lowMask_bit _ _ hm, show a - d = bits / 64 by omega]
        have e2 : (m[s + bits / 64]?.getD 0).getLsbD j = bitOf m s (64 * (bits / 64) + j + 0) := by
          unfold bitOf
          rw [show (64 * (bits / 64) + j + 0) / 64 = bits / 64 by omega, show (64 * (bits / 64) + j + 0) % 64 = j by omega]
        rw [e2, show decide (j < bits % 64) = decide (64 * (bits / 64) + j < bits) by rw [decide_eq_decide]; omega, Nat.add_zero]
        cases decide (64 * (bits / 64) + j < bits) <;> simp
      · rw [if_neg h, ha1]
        congr 1
        apply propext
        omega

/-! ### The inline entry points -/

/-- C46: `bfdev_bitmap_shl`. The shift count of a bitmap known to the compiler to fit one word must be below 64. -/
theorem bitmap_shl (const : Bool) {m : Mem} {d s shift bits : Nat} (hd : Inside m d bits) (hs : Inside m s bits) (hb : bits ≤ 2 ^ 32 - 64)
    (ho : s ≤ d ∨ d + words bits ≤ s) (hsh : const = true → bits ≤ 64 → shift < 64) :
    ∃ m', bmShl const m d s shift bits = some m' ∧ Writes m m' d bits (fun i => decide (shift ≤ i) && bitOf m s (i - shift)) := by
  unfold bmShl
  by_cases hc : constSmall const bits = true
  · rw [hc]
    obtain ⟨c, b1, b2⟩ := small_iff.1 hc
    simp only [Bool.not_true, Bool.false_eq_true, if_false, if_pos (hsh c b2), bind, Option.bind, rd_some (small_inside hs b1)]
    refine small_writes (small_inside hd b1) b1 b2 (fun j hj => ?_)
    rw [BitVec.getLsbD_and, BitVec.getLsbD_shiftLeft, lowMask_small b1 b2]
    by_cases h : shift ≤ j
    · rw [word_bitOf (by omega)]
      have : ¬ j < shift := by omega
      simp [hj, h, this]
    · have : j < shift := by omega
      simp [h, this]
  · rw [if_pos (by simpa using hc)]
    exact compShl_eq hd hs hb ho

/-- C46: `bfdev_bitmap_shr`, under the same guard as `compShr_partial` unless the bitmap is known to fit one word. -/
theorem bitmap_shr_partial (const : Bool) {m : Mem} {d s shift bits : Nat} (hd : Inside m d bits) (hs : Inside m s bits) (hb : bits ≤ 2 ^ 32 - 64)
    (ho : d ≤ s ∨ s + words bits ≤ d) (hsh : const = true → bits ≤ 64 → shift < 64)
    (hg : (const = true ∧ bits ≤ 64) ∨ bits % 64 = 0 ∨ shift = 0 ∨ words bits ≤ shift / 64) :
    ∃ m', bmShr const m d s shift bits = some m' ∧ Writes m m' d bits (fun i => decide (i + shift < bits) && bitOf m s (i + shift)) := by
  unfold bmShr
  by_cases hc : constSmall const bits = true
  · rw [hc]
    obtain ⟨c, b1, b2⟩ := small_iff.1 hc
    simp only [Bool.not_true, Bool.false_eq_true, if_false, if_pos (hsh c b2), bind, Option.bind, rd_some (small_inside hs b1)]
    refine small_writes (small_inside hd b1) b1 b2 (fun j hj => ?_)
    rw [BitVec.getLsbD_ushiftRight, BitVec.getLsbD_and]
    by_cases h : shift + j < bits
    · rw [word_bitOf (by omega), lowMask_small b1 b2, Nat.add_comm shift j]
      have h1 : j + shift < bits := by omega
      have h2 : j < bits := by omega
      simp [h1, h2]
    · have h1 : ¬ j + shift < bits := by omega
      by_cases h3 : shift + j < 64
      · rw [lowMask_small b1 b2]; simp [h, h1]
      · rw [BitVec.getLsbD_of_ge _ _ (by omega)]; simp [h1]
  · rw [if_pos (by simpa using hc)]
    refine compShr_partial hd hs hb ho ?_
    rcases hg with ⟨h1, h2⟩ | h
    · left
      have : bits = 0 := by
        simp [constSmall, h1] at hc
        omega
      simp [this]
    · exact h

/-- Disagreement: shifting a 4-bit bitmap with bit 0 set right by one gives 2 instead of 0, and shifting 68 bits right by one moves
the top word left. -/
theorem shr_violated : compShr [1#64] 0 0 1 4 = some [2#64] ∧ ¬ Writes [1#64] [2#64] 0 4 (fun i => decide (i + 1 < 4) && bitOf [1#64] 0 (i + 1)) ∧
    compShr [0#64, 1#64] 0 0 1 68 = some [0x8000000000000000#64, 2#64] := by
  refine ⟨by decide +kernel, fun h => ?_, by decide +kernel⟩
  have := h.2 1 (by decide)
  revert this
  decide

/-- Disagreement: for a bitmap known to fit one word, shift counts of 64 and more are undefined. -/
theorem small_shift_undefined {m : Mem} {d s shift bits : Nat} (h1 : 1 ≤ bits) (h2 : bits ≤ 64) (h3 : 64 ≤ shift) :
    bmShl true m d s shift bits = none ∧ bmShr true m d s shift bits = none := by
  have hc : constSmall true bits = true := small_iff.2 ⟨rfl, h1, h2⟩
  unfold bmShl bmShr
  rw [hc]
  simp [show ¬ shift < 64 by omega]

example : compShl [3#64, 1#64] 0 0 65 100 = some [0#64, 6#64] := by decide +kernel
example : compShr [0#64, 3#64] 0 0 65 128 = some [1#64, 0#64] := by decide +kernel

end Bfdev.Bitmap

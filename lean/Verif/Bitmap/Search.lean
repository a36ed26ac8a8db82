import Verif.Bitmap.Bytes
set_option linter.unusedSimpArgs false
namespace Bfdev.Bitmap
open Bfdev.Scan (Word lowMask highMask bit bitRange ffsuf flsuf ffzuf flzuf IsFirst IsLast)

def invW (inv : Bool) : Word := if inv then BitVec.allOnes 64 else 0

theorem invW_bit (inv : Bool) (i : Nat) (h : i < 64) : (invW inv).getLsbD i = inv := by
  cases inv
  · simp [invW]
  · show (BitVec.allOnes 64).getLsbD i = true
    rw [BitVec.getLsbD_allOnes]; simp [h]

theorem ff_bit (i : Nat) : (0xff#64).getLsbD i = decide (i < 8) := by
  rw [show (0xff#64 : Word) = lowMask 8 by decide, lowMask_bit 8 i (by decide)]

theorem swab_bit (v : Word) (i : Nat) (hi : i < 64) : (swab v).getLsbD i = v.getLsbD (56 - 8 * (i / 8) + i % 8) := by
  have key : ∀ k, k < 8 → (((v >>> (8 * k)) &&& 0xff#64) <<< (56 - 8 * k)).getLsbD i = (decide (i / 8 = 7 - k) && v.getLsbD (8 * k + i % 8)) := by
    intro k hk
    rw [BitVec.getLsbD_shiftLeft, BitVec.getLsbD_and, BitVec.getLsbD_ushiftRight, ff_bit]
    by_cases h : i / 8 = 7 - k
    · have e1 : ¬ i < 56 - 8 * k := by omega
      have e2 : i - (56 - 8 * k) = i % 8 := by omega
      have e3 : i % 8 < 8 := by omega
      simp [hi, e1, e2, e3, h]
    · by_cases h1 : i < 56 - 8 * k
      · simp [h, h1]
      · have e2 : ¬ i - (56 - 8 * k) < 8 := by omega
        simp [h, h1, e2]
  unfold swab
  simp only [show List.range 8 = [0, 1, 2, 3, 4, 5, 6, 7] from rfl, List.foldl_cons, List.foldl_nil, BitVec.getLsbD_or, key _ (show 0 < 8 by decide),
    key _ (show 1 < 8 by decide), key _ (show 2 < 8 by decide), key _ (show 3 < 8 by decide), key _ (show 4 < 8 by decide),
    key _ (show 5 < 8 by decide), key _ (show 6 < 8 by decide), key _ (show 7 < 8 by decide)]
  have h8 : i / 8 < 8 := by omega
  generalize hq : i / 8 = q at h8 ⊢
  rcases q with _ | _ | _ | _ | _ | _ | _ | _ | q <;> simp <;> omega

theorem sw_bit (swap : Bool) (v : Word) (i : Nat) (hi : i < 64) :
    (sw swap v).getLsbD i = v.getLsbD (if swap then 56 - 8 * (i / 8) + i % 8 else i) := by
  cases swap
  · rfl
  · exact swab_bit v i hi

theorem sw_and (swap : Bool) (v k : Word) : sw swap (v &&& sw swap k) = sw swap v &&& k := by
  apply BitVec.eq_of_getLsbD_eq
  intro i hi
  cases swap with
  | false => rfl
  | true =>
    rw [sw_bit _ _ _ hi, BitVec.getLsbD_and, BitVec.getLsbD_and, sw_bit _ _ _ (by simp; omega), sw_bit _ _ _ hi]
    simp only [if_true]
    congr 2
    omega

theorem sw_xor (swap inv : Bool) (v : Word) : sw swap (v ^^^ invW inv) = sw swap v ^^^ invW inv := by
  apply BitVec.eq_of_getLsbD_eq
  intro i hi
  rw [sw_bit _ _ _ hi, BitVec.getLsbD_xor, BitVec.getLsbD_xor, sw_bit _ _ _ hi, invW_bit _ _ hi, invW_bit]
  cases swap <;> simp <;> omega

theorem sw_zero (swap : Bool) (v : Word) : sw swap v = 0 ↔ v = 0 := by
  constructor
  · intro h
    rw [word_eq_zero] at h ⊢
    intro i hi
    cases swap with
    | false => exact h i hi
    | true =>
      have := h (56 - 8 * (i / 8) + i % 8) (by omega)
      rw [sw_bit _ _ _ (by omega)] at this
      simp only [if_true] at this
      rwa [show 56 - 8 * ((56 - 8 * (i / 8) + i % 8) / 8) + (56 - 8 * (i / 8) + i % 8) % 8 = i by omega] at this
  · rintro rfl
    rw [word_eq_zero]
    intro i hi
    rw [sw_bit _ _ _ hi]; simp

theorem sw_word (swap : Bool) (m : Mem) (a i j : Nat) (hj : j < 64) : (sw swap (m[a + i]?.getD 0)).getLsbD j = bitOrd swap m a (64 * i + j) := by
  rw [sw_bit _ _ _ hj]
  unfold bitOrd bitOf
  cases swap
  · simp only [Bool.false_eq_true, if_false]
    rw [show (64 * i + j) / 64 = i by omega, show (64 * i + j) % 64 = j by omega]
  · simp only [if_true]
    rw [show (64 * ((64 * i + j) / 64) + (56 - 8 * ((64 * i + j) % 64 / 8) + (64 * i + j) % 8)) / 64 = i by omega,
      show (64 * ((64 * i + j) / 64) + (56 - 8 * ((64 * i + j) % 64 / 8) + (64 * i + j) % 8)) % 64 = 56 - 8 * (j / 8) + j % 8 by omega]

theorem isFirst_of {v : Word} (h : v ≠ 0) : ∃ k, ffsuf v = some k ∧ k < 64 ∧ v.getLsbD k = true ∧ ∀ j, j < k → v.getLsbD j = false := by
  obtain ⟨k, hk⟩ := Scan.exists_first v h
  exact ⟨k, Scan.ffsuf_some.2 hk, hk.lt, hk.1, hk.2⟩

theorem isLast_of {v : Word} (h : v ≠ 0) : ∃ k, flsuf v = some k ∧ k < 64 ∧ v.getLsbD k = true ∧ ∀ j, k < j → v.getLsbD j = false := by
  obtain ⟨k, hk⟩ := Scan.exists_last v h
  exact ⟨k, Scan.flsuf_some.2 hk, hk.lt, hk.1, hk.2⟩

/-- The word at position `k` after byte order and inversion. -/
theorem val_bit (swap inv : Bool) (m : Mem) (a k j : Nat) (hj : j < 64) :
    (sw swap (m[a + k]?.getD 0) ^^^ invW inv).getLsbD j = (bitOrd swap m a (64 * k + j) != inv) := by
  rw [BitVec.getLsbD_xor, sw_word _ _ _ _ _ hj, invW_bit _ _ hj]

theorem firstLoop_eq {m : Mem} {a bits : Nat} {inv swap : Bool} (ha : Inside m a bits) (hb : bits ≤ 2 ^ 32 - 64) : ∀ (fuel k : Nat),
    bits ≤ 64 * k + 64 * fuel → (∀ j, j < 64 * k → j < bits → (bitOrd swap m a j != inv) = false) →
    ∃ r, firstLoop m bits (invW inv) swap (fuel + 1) (a + k) (64 * k) = some r ∧ FirstAt (fun i => bitOrd swap m a i != inv) 0 bits r := by
  intro fuel
  induction fuel with
  | zero =>
    intro k hf hp
    exact ⟨bits, by rw [firstLoop, if_neg (by omega)]; rfl, Or.inr ⟨rfl, fun j _ hj => hp j (by omega) hj⟩⟩
  | succ fuel ih =>
    intro k hf hp
    by_cases hk : 64 * k < bits
    · have hlt : a + k < m.length := inside_lt ha (by unfold words; omega)
      rw [firstLoop, if_pos hk, rd_some hlt]
      simp only [bind, Option.bind]
      have hv := val_bit swap inv m a k
      generalize sw swap (m[a + k]?.getD 0) ^^^ invW inv = v at hv
      by_cases hz : v = 0
      · rw [if_pos hz, show (64 * k + 64) % 2 ^ 32 = 64 * (k + 1) by omega, show a + k + 1 = a + (k + 1) by omega]
        refine ih (k + 1) (by omega) (fun j h1 h2 => ?_)
        by_cases hj : j < 64 * k
        · exact hp j hj h2
        · have := hv (j - 64 * k) (by omega)
          rw [show 64 * k + (j - 64 * k) = j by omega, hz] at this
          rw [← this]; simp
      · rw [if_neg hz]
        obtain ⟨q, e, hq, h1, h2⟩ := isFirst_of hz
        rw [e]
        dsimp only
        have hbefore : ∀ j, j < 64 * k + q → j < bits → (bitOrd swap m a j != inv) = false := by
          intro j h3 h4
          by_cases hj : j < 64 * k
          · exact hp j hj h4
          · have := hv (j - 64 * k) (by omega)
            rw [show 64 * k + (j - 64 * k) = j by omega, h2 _ (by omega)] at this
            exact this.symm
        by_cases ho : bits ≤ 64 * k + q
        · exact ⟨bits, by rw [if_pos ho]; rfl, Or.inr ⟨rfl, fun j _ hj => hbefore j (by omega) hj⟩⟩
        · exact ⟨64 * k + q, by rw [if_neg ho]; rfl, Or.inl ⟨by omega, by omega, (hv q hq).symm.trans h1, fun j _ hj => hbefore j hj (by omega)⟩⟩
    · exact ⟨bits, by rw [firstLoop, if_neg hk]; rfl, Or.inr ⟨rfl, fun j _ hj => hp j (by omega) hj⟩⟩

/-- Search from the front. -/
theorem compFindFirst_eq {m : Mem} {a bits : Nat} (inv swap : Bool) (ha : Inside m a bits) (hb : bits ≤ 2 ^ 32 - 64) :
    ∃ r, compFindFirst m a bits (invW inv) swap = some r ∧ FirstAt (fun i => bitOrd swap m a i != inv) 0 bits r := by
  exact firstLoop_eq ha hb bits 0 (by omega) (by omega)

theorem lastLoop_eq {m : Mem} {a bits : Nat} {inv swap : Bool} : ∀ (k : Nat) (mask : Word) (hi : Nat),
    (∀ j, j < 64 → mask.getLsbD j = decide (64 * k + j < hi)) → a + k < m.length → 64 * k < hi → hi ≤ 64 * k + 64 →
    ∃ r, lastLoop m a bits (invW inv) swap k mask = some r ∧ LastAt (fun i => bitOrd swap m a i != inv) hi bits r := by
  intro k
  have step : ∀ (k : Nat) (mask : Word) (hi : Nat), (∀ j, j < 64 → mask.getLsbD j = decide (64 * k + j < hi)) → a + k < m.length → hi ≤ 64 * k + 64 →
      ∃ v, lastWord m a (invW inv) swap k mask = some v ∧ (v = 0 → ∀ j, 64 * k ≤ j → j < hi → (bitOrd swap m a j != inv) = false) ∧
        (v ≠ 0 → ∃ r, (flsuf v).map (k * 64 + ·) = some r ∧ LastAt (fun i => bitOrd swap m a i != inv) hi bits r) := by
    intro k mask hi hm hlt hh
    refine ⟨(sw swap (m[a + k]?.getD 0) ^^^ invW inv) &&& mask, by unfold lastWord; rw [rd_some hlt]; rfl, ?_⟩
    have hv := val_bit swap inv m a k
    generalize sw swap (m[a + k]?.getD 0) ^^^ invW inv = v at hv
    have hvm : ∀ j, j < 64 → (v &&& mask).getLsbD j = ((bitOrd swap m a (64 * k + j) != inv) && decide (64 * k + j < hi)) := by
      intro j hj
      rw [BitVec.getLsbD_and, hv j hj, hm j hj]
    refine ⟨fun hz j h1 h2 => ?_, fun hz => ?_⟩
    · have := hvm (j - 64 * k) (by omega)
      rw [hz, show 64 * k + (j - 64 * k) = j by omega] at this
      simpa [h2] using this.symm
    · obtain ⟨q, e, hq, h1, h2⟩ := isLast_of hz
      refine ⟨k * 64 + q, by rw [e]; rfl, Or.inl ?_⟩
      rw [hvm q hq, Bool.and_eq_true, decide_eq_true_eq] at h1
      refine ⟨by omega, by rw [show k * 64 + q = 64 * k + q by omega]; exact h1.1, fun j h3 h4 => ?_⟩
      have := hvm (j - 64 * k) (by omega)
      rw [h2 _ (by omega), show 64 * k + (j - 64 * k) = j by omega] at this
      simpa [h4] using this.symm
  induction k with
  | zero =>
    intro mask hi hm hlt _ hh
    obtain ⟨v, e, h0, h1⟩ := step 0 mask hi hm hlt hh
    rw [lastLoop, e]
    simp only [bind, Option.bind]
    by_cases hz : v = 0
    · exact ⟨bits, by rw [if_pos hz]; rfl, Or.inr ⟨rfl, fun j hj => h0 hz j (by omega) hj⟩⟩
    · rw [if_neg hz]; exact h1 hz
  | succ k ih =>
    intro mask hi hm hlt hl hh
    obtain ⟨v, e, h0, h1⟩ := step (k + 1) mask hi hm hlt hh
    rw [lastLoop, e]
    simp only [bind, Option.bind]
    by_cases hz : v = 0
    · rw [if_pos hz]
      obtain ⟨r, e, hr⟩ := ih (BitVec.allOnes 64) (64 * k + 64) (by
        intro j hj
        rw [BitVec.getLsbD_allOnes]
        simp) (by omega) (by omega) (by omega)
      refine ⟨r, e, ?_⟩
      rcases hr with ⟨a1, a2, a3⟩ | ⟨a1, a2⟩
      · refine Or.inl ⟨by omega, a2, fun j h2 h3 => ?_⟩
        by_cases hj : j < 64 * k + 64
        · exact a3 j h2 hj
        · exact h0 hz j (by omega) h3
      · refine Or.inr ⟨a1, fun j h3 => ?_⟩
        by_cases hj : j < 64 * k + 64
        · exact a2 j hj
        · exact h0 hz j (by omega) h3
    · rw [if_neg hz]; exact h1 hz

/-- Search from the back. -/
theorem compFindLast_eq {m : Mem} {a bits : Nat} (inv swap : Bool) (ha : Inside m a bits) :
    ∃ r, compFindLast m a bits (invW inv) swap = some r ∧ LastAt (fun i => bitOrd swap m a i != inv) bits bits r := by
  unfold compFindLast
  by_cases hb : bits = 0
  · subst hb; exact ⟨0, rfl, Or.inr ⟨rfl, by omega⟩⟩
  · rw [if_neg hb]
    refine lastLoop_eq _ _ _ (fun j hj => ?_) (inside_lt ha (by unfold words; omega)) (by omega) (by omega)
    by_cases hm : bits % 64 = 0
    · rw [lowMask_full _ hm, BitVec.getLsbD_allOnes]; simp; omega
    · rw [lowMask_bit _ _ hm, decide_eq_decide]; omega

/-! ### next and previous -/

/-- The bit looked for at position `i`: of one bitmap, or of the intersection of two. -/
def pairBit (swap : Bool) (m : Mem) (a1 : Nat) (a2 : Option Nat) (i : Nat) : Bool :=
  bitOrd swap m a1 i && match a2 with
    | some a2 => bitOrd swap m a2 i
    | none => true

theorem fetch_eq {m : Mem} {a1 : Nat} {a2 : Option Nat} {bits k : Nat} (inv swap : Bool) (h1 : Inside m a1 bits) (h2 : ∀ a, a2 = some a → Inside m a bits)
    (hk : k < words bits) : ∃ v, fetch m a1 a2 (invW inv) k = some v ∧ ∀ j, j < 64 → (sw swap v).getLsbD j = (pairBit swap m a1 a2 (64 * k + j) != inv) := by
  have hl1 := inside_lt h1 hk
  cases a2 with
  | none =>
    refine ⟨_, by unfold fetch; rw [rd_some hl1]; rfl, fun j hj => ?_⟩
    rw [sw_xor, val_bit _ _ _ _ _ _ hj]
    simp [pairBit]
  | some a2 =>
    have hl2 := inside_lt (h2 a2 rfl) hk
    refine ⟨_, by unfold fetch; simp only [rd_some hl1, rd_some hl2]; rfl, fun j hj => ?_⟩
    have e : ∀ u v : Word, (sw swap (u &&& v)).getLsbD j = ((sw swap u).getLsbD j && (sw swap v).getLsbD j) := by
      intro u v
      rw [sw_bit _ _ _ hj, sw_bit _ _ _ hj, sw_bit _ _ _ hj, BitVec.getLsbD_and]
    rw [sw_xor, BitVec.getLsbD_xor, invW_bit _ _ hj, e, sw_word _ _ _ _ _ hj, sw_word _ _ _ _ _ hj]
    rfl

theorem nextLoop_eq {m : Mem} {a1 : Nat} {a2 : Option Nat} {bits lo : Nat} {inv swap : Bool} (h1 : Inside m a1 bits) (h2 : ∀ a, a2 = some a → Inside m a bits)
    (hb : bits ≤ 2 ^ 32 - 64) : ∀ (fuel k : Nat) (v : Word), bits ≤ 64 * k + 64 * fuel → 64 * k < bits →
    (∀ j, j < 64 → (sw swap v).getLsbD j = ((pairBit swap m a1 a2 (64 * k + j) != inv) && decide (lo ≤ 64 * k + j))) →
    (∀ j, lo ≤ j → j < 64 * k → (pairBit swap m a1 a2 j != inv) = false) → lo < 64 * k + 64 →
    (nextLoop m a1 a2 bits (invW inv) (fuel + 1) (64 * k) v = some none ∧ ∀ j, lo ≤ j → j < bits → (pairBit swap m a1 a2 j != inv) = false) ∨
    (∃ st v', nextLoop m a1 a2 bits (invW inv) (fuel + 1) (64 * k) v = some (some (st, v')) ∧ v' ≠ 0 ∧
      (∀ j, j < 64 → (sw swap v').getLsbD j = ((pairBit swap m a1 a2 (st + j) != inv) && decide (lo ≤ st + j))) ∧
      ∀ j, lo ≤ j → j < st → (pairBit swap m a1 a2 j != inv) = false) := by
  intro fuel
  induction fuel with
  | zero => intro k v hf hk; omega
  | succ fuel ih =>
    intro k v hf hk hv hp hlo
    rw [nextLoop]
    by_cases hz : v = 0
    · rw [if_pos hz]
      have hno : ∀ j, lo ≤ j → j < 64 * k + 64 → (pairBit swap m a1 a2 j != inv) = false := by
        intro j h3 h4
        by_cases hj : j < 64 * k
        · exact hp j h3 hj
        · have := hv (j - 64 * k) (by omega)
          rw [(sw_zero swap v).2 hz, show 64 * k + (j - 64 * k) = j by omega] at this
          simpa [h3] using this.symm
      dsimp only
      rw [show (64 * k + 64) % 2 ^ 32 = 64 * (k + 1) by omega]
      by_cases hend : bits ≤ 64 * (k + 1)
      · rw [if_pos hend]
        exact Or.inl ⟨rfl, fun j h3 h4 => hno j h3 (by omega)⟩
      · rw [if_neg hend, show 64 * (k + 1) / 64 = k + 1 by omega]
        obtain ⟨u, eu, hu⟩ := fetch_eq inv swap h1 h2 (k := k + 1) (by unfold words; omega)
        rw [eu]
        refine ih (k + 1) u (by omega) (by omega) (fun j hj => ?_) (fun j h3 h4 => hno j h3 (by omega)) (by omega)
        rw [hu j hj]
        have : lo ≤ 64 * (k + 1) + j := by omega
        simp [this]
    · rw [if_neg hz]
      exact Or.inr ⟨64 * k, v, rfl, hz, hv, hp⟩

/-- Search forward from `start`. -/
theorem compFindNext_eq {m : Mem} {a1 : Nat} {a2 : Option Nat} {bits start : Nat} (inv swap : Bool) (h1 : Inside m a1 bits) (h2 : ∀ a, a2 = some a → Inside m a bits)
    (hb : bits ≤ 2 ^ 32 - 64) :
    ∃ r, compFindNext m a1 a2 bits start (invW inv) swap = some r ∧ FirstAt (fun i => pairBit swap m a1 a2 i != inv) start bits r := by
  unfold compFindNext
  by_cases hs : bits ≤ start
  · rw [if_pos hs]; exact ⟨bits, rfl, Or.inr ⟨rfl, by omega⟩⟩
  · rw [if_neg hs]
    obtain ⟨u, eu, hu⟩ := fetch_eq inv swap h1 h2 (k := start / 64) (by unfold words; omega)
    simp only [bind, Option.bind, eu]
    have hv : ∀ j, j < 64 → (sw swap (u &&& sw swap (highMask start))).getLsbD j =
        ((pairBit swap m a1 a2 (64 * (start / 64) + j) != inv) && decide (start ≤ 64 * (start / 64) + j)) := by
      intro j hj
      rw [sw_and, BitVec.getLsbD_and, hu j hj, highMask_bit]
      congr 1
      rw [decide_eq_decide]; omega
    rw [show start / 64 * 64 = 64 * (start / 64) by omega]
    rcases nextLoop_eq (lo := start) h1 h2 hb bits (start / 64) _ (by omega) (by omega) hv (fun j h3 h4 => by omega) (by omega) with
      ⟨e, h⟩ | ⟨st, v', e, hz, hv', hp⟩
    · rw [e]; exact ⟨bits, rfl, Or.inr ⟨rfl, h⟩⟩
    · rw [e]
      dsimp only
      obtain ⟨q, e, hq, h3, h4⟩ := isFirst_of (v := sw swap v') (by rw [Ne, sw_zero]; exact hz)
      rw [e]
      rw [hv' q hq, Bool.and_eq_true, decide_eq_true_eq] at h3
      have hbefore : ∀ j, start ≤ j → j < st + q → (pairBit swap m a1 a2 j != inv) = false := by
        intro j h5 h6
        by_cases hj : j < st
        · exact hp j h5 hj
        · have := hv' (j - st) (by omega)
          rw [h4 _ (by omega), show st + (j - st) = j by omega] at this
          simpa [h5] using this.symm
      refine ⟨min (st + q) bits, rfl, ?_⟩
      by_cases ho : st + q < bits
      · rw [Nat.min_eq_left (by omega)]
        exact Or.inl ⟨h3.2, ho, h3.1, hbefore⟩
      · rw [Nat.min_eq_right (by omega)]
        exact Or.inr ⟨rfl, fun j h5 h6 => hbefore j h5 (by omega)⟩

theorem prevLoop_eq {m : Mem} {a1 : Nat} {a2 : Option Nat} {bits hi : Nat} {inv swap : Bool} (h1 : Inside m a1 bits) (h2 : ∀ a, a2 = some a → Inside m a bits)
    (hb : bits ≤ 2 ^ 32 - 64) : ∀ (k fuel : Nat) (v : Word), k < fuel → 64 * k < bits → 64 * k < hi →
    (∀ j, j < 64 → (sw swap v).getLsbD j = ((pairBit swap m a1 a2 (64 * k + j) != inv) && decide (64 * k + j < hi))) →
    (∀ j, 64 * k + 64 ≤ j → j < hi → (pairBit swap m a1 a2 j != inv) = false) →
    (prevLoop m a1 a2 bits (invW inv) fuel (64 * k) v = some none ∧ ∀ j, j < hi → (pairBit swap m a1 a2 j != inv) = false) ∨
    (∃ st v', prevLoop m a1 a2 bits (invW inv) fuel (64 * k) v = some (some (st, v')) ∧ v' ≠ 0 ∧
      (∀ j, j < 64 → (sw swap v').getLsbD j = ((pairBit swap m a1 a2 (st + j) != inv) && decide (st + j < hi))) ∧
      ∀ j, st + 64 ≤ j → j < hi → (pairBit swap m a1 a2 j != inv) = false) := by
  intro k
  induction k with
  | zero =>
    intro fuel v hf hk hlo hv hp
    obtain ⟨fuel, rfl⟩ : ∃ f, fuel = f + 1 := ⟨fuel - 1, by omega⟩
    rw [prevLoop]
    by_cases hz : v = 0
    · rw [if_pos hz]
      dsimp only
      rw [if_pos (by omega)]
      refine Or.inl ⟨rfl, fun j h3 => ?_⟩
      by_cases hj : j < 64
      · have := hv j hj
        rw [(sw_zero swap v).2 hz, show 64 * 0 + j = j by omega] at this
        simpa [h3] using this.symm
      · exact hp j (by omega) h3
    · rw [if_neg hz]
      exact Or.inr ⟨64 * 0, v, rfl, hz, hv, hp⟩
  | succ k ih =>
    intro fuel v hf hk hlo hv hp
    obtain ⟨fuel, rfl⟩ : ∃ f, fuel = f + 1 := ⟨fuel - 1, by omega⟩
    rw [prevLoop]
    by_cases hz : v = 0
    · rw [if_pos hz]
      dsimp only
      rw [show (64 * (k + 1) + (2 ^ 32 - 64)) % 2 ^ 32 = 64 * k by omega, if_neg (by omega), show 64 * k / 64 = k by omega]
      obtain ⟨u, eu, hu⟩ := fetch_eq inv swap h1 h2 (k := k) (by unfold words; omega)
      rw [eu]
      refine ih fuel u (by omega) (by omega) (by omega) (fun j hj => ?_) (fun j h3 h4 => ?_)
      · rw [hu j hj]
        have : 64 * k + j < hi := by omega
        simp [this]
      · by_cases hj : j < 64 * (k + 1) + 64
        · have := hv (j - 64 * (k + 1)) (by omega)
          rw [(sw_zero swap v).2 hz, show 64 * (k + 1) + (j - 64 * (k + 1)) = j by omega] at this
          simpa [h4] using this.symm
        · exact hp j (by omega) h4
    · rw [if_neg hz]
      exact Or.inr ⟨64 * (k + 1), v, rfl, hz, hv, hp⟩

/-- Search backward from `start`. -/
theorem compFindPrev_eq {m : Mem} {a1 : Nat} {a2 : Option Nat} {bits start : Nat} (inv swap : Bool) (h1 : Inside m a1 bits) (h2 : ∀ a, a2 = some a → Inside m a bits)
    (hb : bits ≤ 2 ^ 32 - 64) :
    ∃ r, compFindPrev m a1 a2 bits start (invW inv) swap = some r ∧
      (start < bits → LastAt (fun i => pairBit swap m a1 a2 i != inv) (start + 1) bits r) ∧ (bits ≤ start → r = bits) := by
  unfold compFindPrev
  by_cases hs : bits ≤ start
  · rw [if_pos hs]; exact ⟨bits, rfl, by omega, by omega⟩
  · rw [if_neg hs]
    obtain ⟨u, eu, hu⟩ := fetch_eq inv swap h1 h2 (k := start / 64) (by unfold words; omega)
    simp only [bind, Option.bind, eu]
    have hv : ∀ j, j < 64 → (sw swap (u &&& sw swap (lowMask (start + 1)))).getLsbD j =
        ((pairBit swap m a1 a2 (64 * (start / 64) + j) != inv) && decide (64 * (start / 64) + j < start + 1)) := by
      intro j hj
      rw [sw_and, BitVec.getLsbD_and, hu j hj]
      congr 1
      by_cases hm : (start + 1) % 64 = 0
      · rw [lowMask_full _ hm, BitVec.getLsbD_allOnes]; simp; omega
      · rw [lowMask_bit _ _ hm, decide_eq_decide]; omega
    rw [show start / 64 * 64 = 64 * (start / 64) by omega]
    rcases prevLoop_eq (hi := start + 1) h1 h2 hb (start / 64) (bits + 1) _ (by omega) (by omega) (by omega) hv (fun j h3 h4 => by omega) with
      ⟨e, h⟩ | ⟨st, v', e, hz, hv', hp⟩
    · rw [e]; exact ⟨bits, rfl, fun _ => Or.inr ⟨rfl, h⟩, fun _ => rfl⟩
    · rw [e]
      dsimp only
      obtain ⟨q, e, hq, h3, h4⟩ := isLast_of (v := sw swap v') (by rw [Ne, sw_zero]; exact hz)
      rw [e]
      rw [hv' q hq, Bool.and_eq_true, decide_eq_true_eq] at h3
      refine ⟨min (st + q) bits, rfl, fun _ => ?_, fun h => absurd h hs⟩
      rw [Nat.min_eq_left (by omega)]
      refine Or.inl ⟨by omega, h3.1, fun j h5 h6 => ?_⟩
      by_cases hj : j < st + 64
      · have := hv' (j - st) (by omega)
        rw [h4 _ (by omega), show st + (j - st) = j by omega] at this
        simpa [h6] using this.symm
      · exact hp j (by omega) h6

end Bfdev.Bitmap

import Verif.Circle.Model
/-!
C61. Specification: the reader stands at `tail`, the writer at `head`; going `n` steps from position `p` in a ring of `size` cells ends at `(p + n) % size`.
One cell stays free.
-/
namespace Bfdev.Circle

theorem w64_pos : 0 < W64 := by decide +kernel
theorem w64_lt (a : Nat) : w64 a < W64 := Nat.mod_lt _ w64_pos
theorem pow_lt (k : Nat) (hk : k < 64) : 2 ^ k < W64 := by
  have : 2 ^ k < 2 ^ 64 := Nat.pow_lt_pow_right (by decide) hk
  have e : W64 = 2 ^ 64 := by decide +kernel
  rw [e]; exact this
theorem pow_dvd (k : Nat) (hk : k < 64) : 2 ^ k ∣ W64 := by
  have e : W64 = 2 ^ 64 := by decide +kernel
  rw [e]; exact Nat.pow_dvd_pow 2 (by omega)

theorem wsub_le {a b : Nat} (h : b ≤ a) (ha : a < W64) : wsub a b = a - b := by
  unfold wsub
  rw [show a + W64 - b = (a - b) + W64 from Nat.sub_add_comm h, Nat.add_mod_right]
  exact Nat.mod_eq_of_lt (Nat.lt_of_le_of_lt (Nat.sub_le a b) ha)

theorem and_mask (a k : Nat) (hk : k < 64) : a &&& wsub (2 ^ k) 1 = a % 2 ^ k := by
  have h1 : 0 < 2 ^ k := Nat.two_pow_pos k
  have h2 : 2 ^ k < 2 ^ 64 := Nat.pow_lt_pow_right (by decide) hk
  have : wsub (2 ^ k) 1 = 2 ^ k - 1 := by
    unfold wsub W64
    rw [show 2 ^ k + 18446744073709551616 - 1 = 18446744073709551616 + (2 ^ k - 1) by omega]
    rw [Nat.add_mod_left, Nat.mod_eq_of_lt (by omega)]
  rw [this, Nat.and_two_pow_sub_one_eq_mod]

theorem w64_mod (a k : Nat) (hk : k < 64) : w64 a % 2 ^ k = a % 2 ^ k := by
  unfold w64
  exact Nat.mod_mod_of_dvd _ (pow_dvd k hk)

theorem wsub_add_mod (a b k : Nat) (hk : k < 64) (hb : b < W64) : (wsub a b + b) % 2 ^ k = a % 2 ^ k := by
  have hd : 2 ^ k ∣ W64 := pow_dvd k hk
  unfold wsub
  rw [Nat.add_mod, Nat.mod_mod_of_dvd _ hd, ← Nat.add_mod, show a + W64 - b + b = a + W64 by omega, Nat.add_mod, Nat.mod_eq_zero_of_dvd hd]
  simp

/-- C61. The count is the number of steps from the reader to the writer. -/
theorem cnt_correct (head tail k : Nat) (hk : k < 64) (ht : tail < W64) :
    cnt head tail (2 ^ k) < 2 ^ k ∧ (tail + cnt head tail (2 ^ k)) % 2 ^ k = head % 2 ^ k := by
  unfold cnt
  rw [and_mask _ _ hk]
  refine ⟨Nat.mod_lt _ (Nat.two_pow_pos k), ?_⟩
  rw [Nat.add_mod_mod, Nat.add_comm, wsub_add_mod _ _ _ hk ht]

/-- The number of steps is unique. -/
theorem steps_unique {a b s p : Nat} (ha : a < s) (hb : b < s) (h : (p + a) % s = (p + b) % s) : a = b := by
  have h1 := Nat.sub_mod_eq_zero_of_mod_eq h
  have h2 := Nat.sub_mod_eq_zero_of_mod_eq h.symm
  rw [show p + a - (p + b) = a - b by omega, Nat.mod_eq_of_lt (by omega)] at h1
  rw [show p + b - (p + a) = b - a by omega, Nat.mod_eq_of_lt (by omega)] at h2
  omega

/-- C61. Count and space add up to `size - 1`. -/
theorem cnt_add_space (head tail k : Nat) (hk : k < 64) (hh : head < W64) (ht : tail < W64) :
    cnt head tail (2 ^ k) + space head tail (2 ^ k) = 2 ^ k - 1 := by
  have hp := Nat.two_pow_pos k
  obtain ⟨h1, h2⟩ := cnt_correct head tail k hk ht
  have h3 : space head tail (2 ^ k) < 2 ^ k := by
    unfold space; rw [and_mask _ _ hk]; exact Nat.mod_lt _ hp
  have h4 : (head + 1 + space head tail (2 ^ k)) % 2 ^ k = tail % 2 ^ k := by
    unfold space
    rw [and_mask _ _ hk, Nat.add_mod_mod, Nat.add_mod, ← w64_mod (head + 1) k hk, ← Nat.add_mod, Nat.add_comm, wsub_add_mod _ _ _ hk (w64_lt _)]
  -- space + cnt + 1 is a multiple of size
  generalize cnt head tail (2 ^ k) = c at *
  generalize space head tail (2 ^ k) = s at *
  have h5 : (tail + (c + 1 + s)) % 2 ^ k = (tail + 0) % 2 ^ k := by
    rw [show tail + (c + 1 + s) = (tail + c) + (1 + s) by omega, Nat.add_mod, h2, ← Nat.add_mod, show head + (1 + s) = head + 1 + s by omega, h4, Nat.add_zero]
  have h6 := Nat.sub_mod_eq_zero_of_mod_eq h5
  rw [show tail + (c + 1 + s) - (tail + 0) = c + 1 + s by omega] at h6
  obtain ⟨q, hq⟩ := Nat.dvd_of_mod_eq_zero h6
  have hq1 : q = 1 := by
    rcases q with _ | _ | q
    · omega
    · rfl
    · exfalso
      have : 2 ^ k * (q + 1 + 1) = 2 ^ k * q + 2 ^ k + 2 ^ k := by simp [Nat.mul_add]
      omega
  rw [hq1] at hq
  omega

/-- C61. The count up to the end of the buffer: the whole count, or what is left before the end. -/
theorem cnt_end_correct (head tail k : Nat) (hk : k < 64) (hh : head < 2 ^ k) (ht : tail < 2 ^ k) :
    cntEnd head tail (2 ^ k) = min (cnt head tail (2 ^ k)) (2 ^ k - tail) ∧ tail + cntEnd head tail (2 ^ k) ≤ 2 ^ k := by
  have hlt : 2 ^ k < W64 := pow_lt k hk
  have he : wsub (2 ^ k) tail = 2 ^ k - tail := wsub_le (Nat.le_of_lt ht) hlt
  have hl : w64 (head + (2 ^ k - tail)) &&& wsub (2 ^ k) 1 = cnt head tail (2 ^ k) := by
    obtain ⟨h1, h2⟩ := cnt_correct head tail k hk (Nat.lt_trans ht hlt)
    rw [and_mask _ _ hk, w64_mod _ _ hk]
    refine steps_unique (p := tail) (s := 2 ^ k) (Nat.mod_lt _ (by omega)) h1 ?_
    rw [h2, Nat.add_mod_mod, show tail + (head + (2 ^ k - tail)) = head + 2 ^ k by omega, Nat.add_mod_right]
  have e : cntEnd head tail (2 ^ k) = min (cnt head tail (2 ^ k)) (2 ^ k - tail) := by
    unfold cntEnd
    simp only [he, hl]
    clear he hl hlt
    generalize cnt head tail (2 ^ k) = c
    generalize 2 ^ k - tail = d
    split <;> omega
  refine ⟨e, ?_⟩
  clear he hl hlt
  rw [e]
  generalize cnt head tail (2 ^ k) = c
  omega

/-- C61 for the space up to the end, *provided* the caller's variable `end` happens to hold what the macro's `__end` holds.
Missing: every other caller, for which the macro does not compile or is wrong (`space_end_violated`). -/
theorem space_end_partial (head tail k : Nat) (hk : k < 64) (hh : head < 2 ^ k) (ht : tail < 2 ^ k) :
    spaceEnd (2 ^ k - 1 - head) head tail (2 ^ k) = min (space head tail (2 ^ k)) (2 ^ k - head) := by
  have hlt : 2 ^ k < W64 := pow_lt k hk
  have hp := Nat.two_pow_pos k
  have he1 : wsub (2 ^ k) 1 = 2 ^ k - 1 := wsub_le hp hlt
  have he : wsub (wsub (2 ^ k) 1) head = 2 ^ k - 1 - head := by
    rw [he1]
    exact wsub_le (Nat.le_sub_one_of_lt hh) (Nat.lt_of_le_of_lt (Nat.sub_le _ _) hlt)
  have hl : w64 (2 ^ k - 1 - head + tail) &&& wsub (2 ^ k) 1 = space head tail (2 ^ k) := by
    unfold space
    rw [and_mask _ _ hk, and_mask _ _ hk, w64_mod _ _ hk]
    refine steps_unique (p := head + 1) (s := 2 ^ k) (Nat.mod_lt _ hp) (Nat.mod_lt _ hp) ?_
    rw [Nat.add_mod_mod, Nat.add_mod_mod, show head + 1 + (2 ^ k - 1 - head + tail) = tail + 2 ^ k by omega, Nat.add_mod_right]
    rw [Nat.add_mod, ← w64_mod (head + 1) k hk, ← Nat.add_mod, Nat.add_comm, wsub_add_mod _ _ _ hk (w64_lt _)]
  unfold spaceEnd
  simp only [he, hl]
  rw [show 2 ^ k - 1 - head + 1 = 2 ^ k - head by omega]
  rw [show w64 (2 ^ k - head) = 2 ^ k - head from Nat.mod_eq_of_lt (Nat.lt_of_le_of_lt (Nat.sub_le _ _) hlt)]
  clear he hl he1 hlt
  generalize space head tail (2 ^ k) = c
  split <;> omega

/-- C61 fails for `BFDEV_CIRCLE_SPACE_END`: it uses an undeclared name. With a caller's `end` of 0 or 100, at an empty ring of 8 cells, it reports 1 cell or
7 cells, where 4 fit before the end (7 cross it). -/
theorem space_end_violated : min (space 4 4 8) (8 - 4) = 4 ∧ spaceEnd 0 4 4 8 = 1 ∧ spaceEnd 100 4 4 8 = 7 := by decide +kernel

example : cnt 2 6 8 = 4 ∧ space 2 6 8 = 3 ∧ cntEnd 2 6 8 = 2 ∧ spaceEnd 5 2 6 8 = 3 := by decide +kernel

end Bfdev.Circle

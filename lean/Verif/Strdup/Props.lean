import Verif.Strdup.Model
/-!
C65. Specification: the block holds a copy of `s` iff it starts with the characters of `s`, all initialised, followed by a zero byte.
-/
namespace Bfdev.Strdup

/-- The block holds the string `s`, terminated. -/
def HoldsString (b : Block) (s : List Byte) : Prop := ∃ rest, b = s.map some ++ some 0 :: rest

theorem wr_all {α} (m src : List α) (h : src.length = m.length) : wr m 0 src = some src := by
  rw [wr_eq_some (by omega)]; simp [h]

/-- C65. Duplicating a string gives a terminated copy, or `NULL` if the allocator refuses; nothing is written outside the block. -/
theorem strdup_correct (s : List Byte) : (∃ b, strdup true (some s) = some (some b) ∧ HoldsString b s) ∧ strdup false (some s) = some none ∧ strdup true none = some none := by
  refine ⟨⟨(s ++ [0]).map some, ?_, ⟨[], by simp⟩⟩, rfl, rfl⟩
  unfold strdup strcpy malloc
  simp only [if_true]
  rw [wr_all _ _ (by simp)]; rfl

/-- C65 for the bounded duplicate when the bound is exactly the length of the string plus one. Missing: every other bound, for which the code is wrong:
`strndup_unterminated`, `strndup_overflow`. -/
theorem strndup_partial (s : List Byte) : (∃ b, strndup true (some s) (s.length + 1) = some (some b) ∧ HoldsString b (s.take (s.length + 1))) ∧
    (∀ n, strndup false (some s) n = some none) := by
  refine ⟨⟨(s ++ [0]).map some, ?_, ⟨[], by simp [List.take_of_length_le]⟩⟩, fun n => rfl⟩
  unfold strndup strncpy malloc
  simp only [if_true]
  rw [show min s.length (s.length + 1) = s.length by omega, wr_all _ _ (by simp), List.take_of_length_le (by omega)]
  simp

/-- C65 fails: with a bound not greater than the length, the copy is never terminated; the last byte of the block is uninitialised. -/
theorem strndup_unterminated (s : List Byte) (n : Nat) (h : n ≤ s.length) (hs : ∀ c, c ∈ s → c ≠ 0) :
    ∃ b, strndup true (some s) n = some (some b) ∧ (∀ i, i < n → b[i]? = (s[i]?).map some) ∧ b[n]? = some none ∧ ∀ t, ¬ HoldsString b t := by
  refine ⟨(s.take n).map some ++ [none], ?_, ?_, ?_, ?_⟩
  · unfold strndup strncpy malloc
    simp only [if_true]
    rw [show min s.length n = n by omega, show n - s.length = 0 by omega]
    rw [wr_eq_some (by simp; omega)]
    simp [h, Nat.min_eq_left]
  · intro i hi
    rw [List.getElem?_append_left (by simp; omega)]
    rw [List.getElem?_map, List.getElem?_take, if_pos hi]
  · rw [List.getElem?_append_right (by simp; omega)]
    simp [Nat.min_eq_left h]
  · rintro t ⟨rest, ht⟩
    have hm : (some 0 : Option Byte) ∈ (s.take n).map some ++ [none] := by
      rw [ht]; simp
    simp only [List.mem_append, List.mem_map, List.mem_singleton, reduceCtorEq, or_false] at hm
    obtain ⟨c, hc, hz⟩ := hm
    exact hs c (List.mem_of_mem_take hc) (Option.some.inj hz)

/-- C65 fails: with a bound greater than the length plus one, the call writes past the end of the block. -/
theorem strndup_overflow (s : List Byte) (n : Nat) (h : s.length + 1 < n) : strndup true (some s) n = none := by
  unfold strndup strncpy malloc wr
  simp only [if_true]
  rw [if_neg (by simp; omega)]; rfl

example : strndup true (some [0x61, 0x62, 0x63]) 2 = some (some [some 0x61, some 0x62, none]) := by decide
example : strndup true (some [0x61, 0x62, 0x63]) 4 = some (some [some 0x61, some 0x62, some 0x63, some 0]) := by decide
example : strndup true (some [0x61, 0x62, 0x63]) 5 = none := by decide

end Bfdev.Strdup

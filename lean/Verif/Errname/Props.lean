import Verif.Errname.Model
import Verif.Errname.Spec
import Verif.Bsearch.Props
/-!
Error names.
-/
namespace Bfdev.Errname
open Bsearch (bsearch bsearch_correct Ordered)

theorem table_codes : table = codes.map fun c => ⟨c.1, "-" ++ c.2.1, c.2.2⟩ := by decide +kernel

theorem codes_sorted : codes.Pairwise fun a b => a.1 < b.1 := by decide +kernel

theorem table_get {i : Nat} {a : Entry} (h : table[i]? = some a) : ∃ c, codes[i]? = some c ∧ a = ⟨c.1, "-" ++ c.2.1, c.2.2⟩ := by
  rw [table_codes, List.getElem?_map] at h
  obtain ⟨c, h1, h2⟩ := Option.map_eq_some_iff.1 h
  exact ⟨c, h1, h2.symm⟩

theorem codes_mono {i j : Nat} {c d : Nat × String × String} (hi : codes[i]? = some c) (hj : codes[j]? = some d) (h : i < j) : c.1 < d.1 := by
  obtain ⟨h1, rfl⟩ := List.getElem?_eq_some_iff.1 hi
  obtain ⟨h2, rfl⟩ := List.getElem?_eq_some_iff.1 hj
  exact List.pairwise_iff_getElem.1 codes_sorted i j h1 h2 h

theorem codes_inj {i j : Nat} {c d : Nat × String × String} (hi : codes[i]? = some c) (hj : codes[j]? = some d) (h : c.1 = d.1) : c = d := by
  rcases Nat.lt_trichotomy i j with h1 | h1 | h1
  · have := codes_mono hi hj h1; omega
  · subst h1; rw [hi] at hj; exact Option.some.inj hj
  · have := codes_mono hj hi h1; omega

theorem search_ordered (v : Int) : Ordered table (search v) := by
  intro i j a b hi hj hij
  obtain ⟨c, h1, rfl⟩ := table_get hi
  obtain ⟨d, h2, rfl⟩ := table_get hj
  have h : c.1 ≤ d.1 := by
    rcases Nat.lt_or_eq_of_le hij with h | h
    · exact Nat.le_of_lt (codes_mono h1 h2 h)
    · subst h; rw [h1] at h2; cases h2; exact Nat.le_refl _
  unfold search
  dsimp only
  refine ⟨fun hb => ?_, fun ha => ?_⟩ <;> repeat' split at * <;> omega

theorem drop_minus (n : String) : String.ofList (("-" ++ n).toList.drop 1) = n := by
  rw [String.toList_append]
  show String.ofList (n.toList) = n
  exact String.ofList_toList

/-- C85. The name and the information for every error number other than the smallest `int`: for a constant of errno.h its name, for the negated constant its
name with a minus sign in front, with the description of that constant; for everything else nothing. 0 counts as negated: its name is `-ENOERR`. -/
theorem errname_partial (error : Int) (h : -2 ^ 31 < error) :
    errname error = some ((codeOf error.natAbs).map fun c => (if error > 0 then c.2.1 else "-" ++ c.2.1, c.2.2)) := by
  have hf : find error = bsearch table (search error.natAbs) := by
    unfold find
    split
    · rw [if_neg (by omega), show -error = (error.natAbs : Int) by omega]
    · rw [show (error.natAbs : Int) = error by omega]
  obtain ⟨r, h1, h2, h3⟩ := bsearch_correct table (search error.natAbs) (search_ordered _)
  rw [errname, hf, h1, Option.bind_some]
  cases r with
  | none =>
    have h4 := h3.1 rfl
    have : codeOf error.natAbs = none := by
      refine List.find?_eq_none.2 fun c hc e => ?_
      have hm : (⟨c.1, "-" ++ c.2.1, c.2.2⟩ : Entry) ∈ table := by rw [table_codes]; exact List.mem_map.2 ⟨c, hc, rfl⟩
      refine h4 _ hm ?_
      rw [search, if_pos]
      have : c.1 = error.natAbs := by simpa using e
      rw [← this]
    rw [this]
    rfl
  | some i =>
    obtain ⟨a, e1, e2⟩ := h2 i rfl
    obtain ⟨c, e3, rfl⟩ := table_get e1
    have e4 : c.1 = error.natAbs := by
      unfold search at e2
      dsimp only at e2
      split at e2
      · omega
      · split at e2 <;> omega
    have : codeOf error.natAbs = some c := by
      cases h5 : codeOf error.natAbs with
      | none => exact absurd (List.find?_eq_none.1 h5 c (List.mem_of_getElem? e3)) (by simp [e4])
      | some d =>
        have hd := List.find?_some h5
        obtain ⟨j, hj⟩ := List.getElem?_of_mem (List.mem_of_find?_eq_some h5)
        rw [codes_inj hj e3 (by rw [e4]; simpa using hd)]
    rw [this]
    dsimp only
    rw [e1]
    dsimp only [Option.map_some]
    rw [drop_minus]

/-- C85 fails for the smallest `int`: its negation is undefined. -/
theorem errname_violated : errname (-2 ^ 31) = none := by decide

/-- Every name of errno.h is found by its number, and by the negated number with a minus sign. -/
theorem every_constant : ∀ c ∈ codes, 0 < c.1 → errname c.1 = some (some (c.2.1, c.2.2)) ∧ errname (-c.1) = some (some ("-" ++ c.2.1, c.2.2)) := by
  intro c hc h0
  have hc1 : codeOf c.1 = some c := by
    cases h5 : codeOf c.1 with
    | none => exact absurd (List.find?_eq_none.1 h5 c hc) (by simp)
    | some d =>
      have hd := List.find?_some h5
      obtain ⟨j, hj⟩ := List.getElem?_of_mem (List.mem_of_find?_eq_some h5)
      obtain ⟨i, hi⟩ := List.getElem?_of_mem hc
      rw [codes_inj hj hi (by simpa using hd)]
  have hs : ∀ c ∈ codes, c.1 < 4096 := by decide +kernel
  have := hs c hc
  refine ⟨?_, ?_⟩
  · rw [errname_partial _ (by omega), show (c.1 : Int).natAbs = c.1 by omega, hc1, Option.map_some, if_pos (by omega)]
  · rw [errname_partial _ (by omega), show (-(c.1 : Int)).natAbs = c.1 by omega, hc1, Option.map_some, if_neg (by omega)]

example : errname 22 = some (some ("EINVAL", "Invalid argument")) ∧ errname (-22) = some (some ("-EINVAL", "Invalid argument")) ∧ errname 40 = some none ∧
    errname 0 = some (some ("-ENOERR", "No error")) := by decide +kernel

end Bfdev.Errname

import Verif.Textsearch.Spec
/-!
C54: Sunday search.
-/
namespace Bfdev.Textsearch

theorem fold_fold (icase : Bool) : ∀ c, fold icase (fold icase c) = fold icase c := by
  cases icase
  · intro c; rfl
  · decide +kernel

theorem upper_inv : ∀ t : Byte, t = upper t ∨ t = lower (upper t) := by decide +kernel
theorem upper_lower : ∀ c : Byte, upper c = c → upper (lower c) = c := by decide +kernel

/-- A text character equals a folded pattern character iff it is the character itself or, ignoring case, its lower case form. -/
theorem fold_iff (icase : Bool) (c t : Byte) (hc : fold icase c = c) :
    fold icase t = c ↔ t = c ∨ (icase = true ∧ t = lower c) := by
  cases icase with
  | false => simp [fold]
  | true =>
    simp only [fold, if_true, true_and] at hc ⊢
    constructor
    · intro h; rw [← h]; exact upper_inv t
    · rintro (h | h)
      · rw [h]; exact hc
      · rw [h]; exact upper_lower c hc

theorem lower_ne_255 : ∀ c : Byte, c ≠ 255 → lower c ≠ 255 := by decide +kernel
theorem byte_lt {c : Byte} (h : c ≠ 255) : c.toNat < 255 := by
  have h1 := c.isLt
  have : c.toNat ≠ 255 := fun e => h (BitVec.eq_of_toNat_eq e)
  omega

/-- A table with entries for the characters of the pattern: storing at one of them. -/
theorem setShift_some (icase : Bool) (tbl : List Nat) (c : Byte) (v : Nat) (hl : tbl.length = 255) (hc : c ≠ 255) (hf : fold icase c = c) :
    ∃ tbl', setShift icase tbl c v = some tbl' ∧ tbl'.length = 255 ∧
      ∀ t : Byte, tbl'[t.toNat]? = if fold icase t = c then some v else tbl[t.toNat]? := by
  have h1 : c.toNat < tbl.length := by rw [hl]; exact byte_lt hc
  have h2 : (lower c).toNat < 255 := byte_lt (lower_ne_255 c hc)
  unfold setShift
  rw [setIdx_some _ h1, Option.bind_some]
  cases icase with
  | false =>
    refine ⟨tbl.set c.toNat v, rfl, by rw [List.length_set, hl], fun t => ?_⟩
    by_cases e : t = c
    · subst e; rw [List.getElem?_set_self h1, if_pos hf]
    · rw [List.getElem?_set_ne (fun h => e (BitVec.eq_of_toNat_eq h.symm)), if_neg (by simpa [fold] using e)]
  | true =>
    rw [if_pos rfl, setIdx_some _ (by rw [List.length_set, hl]; exact h2)]
    refine ⟨_, rfl, by rw [List.length_set, List.length_set, hl], fun t => ?_⟩
    have hiff := fold_iff true c t hf
    by_cases e2 : t = lower c
    · rw [if_pos (hiff.2 (Or.inr ⟨rfl, e2⟩)), e2, List.getElem?_set_self (by rw [List.length_set, hl]; exact h2)]
    · rw [List.getElem?_set_ne (fun h => e2 (BitVec.eq_of_toNat_eq h.symm))]
      by_cases e : t = c
      · rw [if_pos (hiff.2 (Or.inl e)), e, List.getElem?_set_self h1]
      · rw [List.getElem?_set_ne (fun h => e (BitVec.eq_of_toNat_eq h.symm)), if_neg fun h => by
          rcases hiff.1 h with g | ⟨_, g⟩
          · exact e g
          · exact e2 g]

/-- Shift tables: filled for the first `n` characters of `pat`, with `v i` for the last position `i` of a character. -/
def ShiftOk (icase : Bool) (pat : List Byte) (tbl : List Nat) (n dflt : Nat) (v : Nat → Nat) : Prop :=
  tbl.length = 255 ∧ ∀ t : Byte, t ≠ 255 →
    (∃ i, i < n ∧ pat[i]? = some (fold icase t) ∧ tbl[t.toNat]? = some (v i) ∧ ∀ i', i' < n → pat[i']? = some (fold icase t) → i' ≤ i) ∨
    (tbl[t.toNat]? = some dflt ∧ ∀ i', i' < n → pat[i']? ≠ some (fold icase t))

theorem shift_table (icase : Bool) (pat : List Byte) (n dflt : Nat) (v : Nat → Nat) (body : Nat → List Nat → Option (List Nat))
    (hb : ∀ i tbl c, i < n → pat[i]? = some c → body i tbl = setShift icase tbl c (v i)) (hn : n ≤ pat.length)
    (hf : ∀ c ∈ pat, fold icase c = c) (h255 : ∀ i, i < n → pat[i]? ≠ some 255) :
    ∃ tbl, forN n body (List.replicate 255 dflt) = some tbl ∧ ShiftOk icase pat tbl n dflt v := by
  refine forN_inv (P := fun k tbl => ShiftOk icase pat tbl k dflt v) n body _ ⟨List.length_replicate, fun t ht => Or.inr ⟨?_, fun i' h => by omega⟩⟩ ?_
  · rw [List.getElem?_replicate, if_pos (byte_lt ht)]
  · rintro k hk tbl ⟨p1, p2⟩
    have hkl : k < pat.length := by omega
    have hget : pat[k]? = some pat[k] := List.getElem?_eq_getElem hkl
    obtain ⟨tbl', e1, e2, e3⟩ := setShift_some icase tbl pat[k] (v k) p1 (fun e => h255 k hk (by rw [hget, e])) (hf _ (List.getElem_mem _))
    refine ⟨tbl', by rw [hb k tbl _ hk hget, e1], e2, fun t ht => ?_⟩
    rw [e3 t]
    by_cases c : fold icase t = pat[k]
    · rw [if_pos c]
      exact Or.inl ⟨k, by omega, by rw [hget, c], rfl, fun i' h _ => by omega⟩
    · rw [if_neg c]
      rcases p2 t ht with ⟨i, g1, g2, g3, g4⟩ | ⟨g1, g2⟩
      · refine Or.inl ⟨i, by omega, g2, g3, fun i' h h' => ?_⟩
        rcases Nat.lt_or_ge i' k with hlt | hge
        · exact g4 i' hlt h'
        · have : i' = k := by omega
          subst this
          rw [hget] at h'
          exact absurd (Option.some.inj h').symm c
      · refine Or.inr ⟨g1, fun i' h h' => ?_⟩
        rcases Nat.lt_or_ge i' k with hlt | hge
        · exact g2 i' hlt h'
        · have : i' = k := by omega
          subst this
          rw [hget] at h'
          exact absurd (Option.some.inj h').symm c

/-- Occurrences position by position. -/
theorem occurs_iff (icase : Bool) (pattern text : List Byte) (p : Nat) :
    OccursAt icase pattern text p ↔ p + pattern.length ≤ text.length ∧
      ∀ i, i < pattern.length → (text[p + i]?).map (fold icase) = (pattern.map (fold icase))[i]? := by
  unfold OccursAt
  constructor
  · rintro ⟨h1, h2⟩
    refine ⟨h1, fun i hi => ?_⟩
    rw [← h2, List.getElem?_map, List.getElem?_take, if_pos hi, List.getElem?_drop]
  · rintro ⟨h1, h2⟩
    refine ⟨h1, ?_⟩
    apply List.ext_getElem?
    intro i
    rcases Nat.lt_or_ge i pattern.length with hi | hi
    · rw [← h2 i hi, List.getElem?_map, List.getElem?_take, if_pos hi, List.getElem?_drop]
    · rw [List.getElem?_eq_none (by rw [List.length_map, List.length_take]; omega), List.getElem?_eq_none (by rw [List.length_map]; omega)]

theorem cmp_correct (icase : Bool) (mem : List Byte) : ∀ (pat : List Byte) (pos : Nat), pos + pat.length ≤ mem.length →
    ∃ n, cmpFrom icase mem pat pos = some n ∧ n ≤ pat.length ∧
      (n = pat.length ↔ ∀ i, i < pat.length → (mem[pos + i]?).map (fold icase) = pat[i]?) := by
  intro pat
  induction pat with
  | nil => intro pos h; exact ⟨0, rfl, Nat.le_refl _, by simp⟩
  | cons p ps ih =>
    intro pos h
    simp only [List.length_cons] at h
    have hlt : pos < mem.length := by omega
    rw [cmpFrom, List.getElem?_eq_getElem hlt, Option.bind_some]
    by_cases c : p = fold icase mem[pos]
    · rw [if_neg (not_not_intro c)]
      obtain ⟨n, e1, e2, e3⟩ := ih (pos + 1) (by omega)
      refine ⟨n + 1, by rw [e1, Option.map_some], by simp only [List.length_cons]; omega, ?_⟩
      simp only [List.length_cons, Nat.add_right_cancel_iff]
      rw [e3]
      constructor
      · intro h i hi
        cases i with
        | zero => rw [Nat.add_zero, List.getElem?_eq_getElem hlt]; simp [c]
        | succ i =>
          have := h i (by omega)
          rw [show pos + 1 + i = pos + (i + 1) by omega] at this
          simpa using this
      · intro h i hi
        have := h (i + 1) (by omega)
        rw [show pos + 1 + i = pos + (i + 1) by omega]
        simpa using this
    · rw [if_pos c]
      refine ⟨0, rfl, Nat.zero_le _, ?_⟩
      simp only [List.length_cons]
      refine ⟨fun h => by omega, fun h => ?_⟩
      have := h 0 (by omega)
      rw [Nat.add_zero, List.getElem?_eq_getElem hlt] at this
      simp at this
      exact absurd this.symm c

theorem sunday_prepare (pattern : List Byte) (icase : Bool) (h255 : ∀ c ∈ pattern, c ≠ 255) :
    ∃ k, sundayPrepare pattern icase = some k ∧ k.icase = icase ∧ k.pattern = pattern.map (fold icase) ∧
      ShiftOk icase k.pattern k.shifts pattern.length (pattern.length + 1) (fun i => pattern.length - i) := by
  have hu : ∀ c : Byte, c ≠ 255 → fold icase c ≠ 255 := by
    cases icase
    · intro c h; exact h
    · decide +kernel
  obtain ⟨tbl, e1, e2⟩ := shift_table icase (pattern.map (fold icase)) pattern.length (pattern.length + 1) (fun i => pattern.length - i)
    (sundayBody icase (pattern.map (fold icase)))
    (by intro i tbl c _ h; rw [sundayBody, h, Option.bind_some, List.length_map]) (by simp)
    (by
      intro c hc
      obtain ⟨d, _, rfl⟩ := List.mem_map.1 hc
      exact fold_fold icase d)
    (by
      intro i hi h
      rw [List.getElem?_map, List.getElem?_eq_getElem hi, Option.map_some] at h
      exact hu _ (h255 _ (List.getElem_mem _)) (Option.some.inj h))
  exact ⟨⟨icase, pattern.map (fold icase), tbl⟩, by unfold sundayPrepare; dsimp only; rw [e1, Option.map_some], rfl, rfl, e2⟩

theorem sunday_loop (k : Sunday) (pattern text rest : List Byte) (b : Byte) (hk : k.pattern = pattern.map (fold k.icase))
    (hs : ShiftOk k.icase k.pattern k.shifts pattern.length (pattern.length + 1) (fun i => pattern.length - i))
    (h255 : ∀ c ∈ text ++ [b], c ≠ 255) (hsz : text.length + 2 * pattern.length + 2 < 4294967296) :
    ∀ fuel shift, shift ≤ text.length + pattern.length + 1 → text.length + pattern.length + 1 - shift < fuel →
    (∀ q, q < shift → ¬ OccursAt k.icase pattern text q) →
    (∃ p, sundayLoop k (text ++ b :: rest) text.length fuel shift = some p ∧ FirstFrom k.icase pattern text 0 p) ∨
    (sundayLoop k (text ++ b :: rest) text.length fuel shift = some UINT_MAX ∧ ∀ q, ¬ OccursAt k.icase pattern text q) := by
  have hlen : k.pattern.length = pattern.length := by rw [hk, List.length_map]
  intro fuel
  induction fuel with
  | zero => intro _ _ h; omega
  | succ fuel ih =>
    intro shift hsh hf hnone
    rw [sundayLoop]
    have e0 : w32 (k.pattern.length + shift) = pattern.length + shift := by rw [hlen]; exact Nat.mod_eq_of_lt (by omega)
    rw [e0]
    by_cases c1 : pattern.length + shift ≤ text.length
    · rw [if_pos c1]
      obtain ⟨n, e1, e2, e3⟩ := cmp_correct k.icase (text ++ b :: rest) k.pattern shift (by rw [hlen, List.length_append]; omega)
      rw [e1, Option.bind_some]
      have hocc : n = k.pattern.length ↔ OccursAt k.icase pattern text shift := by
        rw [e3, occurs_iff, hlen, ← hk]
        constructor
        · intro h
          refine ⟨by omega, fun i hi => ?_⟩
          rw [← h i hi, List.getElem?_append_left (by omega)]
        · rintro ⟨_, h⟩ i hi
          rw [← h i hi, List.getElem?_append_left (by omega)]
      by_cases c2 : n = k.pattern.length
      · rw [if_pos c2]
        refine Or.inl ⟨shift, rfl, Nat.zero_le _, hocc.1 c2, fun q _ hq => ?_⟩
        apply Classical.byContradiction
        intro h
        exact hnone q (by omega) hq
      · rw [if_neg c2, hlen]
        have hno : ¬ OccursAt k.icase pattern text shift := fun h => c2 (hocc.2 h)
        by_cases c3 : pattern.length ≥ text.length
        · rw [if_pos c3]
          refine Or.inr ⟨rfl, fun q hq => ?_⟩
          have := hq.1
          rcases Nat.lt_or_ge q shift with h | h
          · exact hnone q h hq
          · have : q = shift := by omega
            subst this
            exact hno hq
        · rw [if_neg c3]
          have hml : shift + pattern.length < (text ++ b :: rest).length := by rw [List.length_append, List.length_cons]; omega
          rw [List.getElem?_eq_getElem hml, Option.bind_some]
          generalize ht : (text ++ b :: rest)[shift + pattern.length] = t
          have ht' : (text ++ b :: rest)[shift + pattern.length]? = some t := by rw [List.getElem?_eq_getElem hml, ht]
          have htn : t ≠ 255 := by
            refine h255 t ?_
            rcases Nat.lt_or_ge (shift + pattern.length) text.length with h | h
            · rw [List.getElem?_append_left h] at ht'
              exact List.mem_append_left _ (List.mem_of_getElem? ht')
            · rw [List.getElem?_append_right h, show shift + pattern.length - text.length = 0 by omega] at ht'
              simp at ht'
              simp [ht']
          -- an occurrence after this one covers the character just looked at
          have hcov : ∀ q, shift < q → q ≤ shift + pattern.length → OccursAt k.icase pattern text q →
              k.pattern[shift + pattern.length - q]? = some (fold k.icase t) := by
            intro q h1 h2 hq
            rw [occurs_iff] at hq
            have := hq.2 (shift + pattern.length - q) (by omega)
            rw [show q + (shift + pattern.length - q) = shift + pattern.length by omega, ← hk] at this
            rw [← this, ← List.getElem?_append_left (l₂ := b :: rest) (by have := hq.1; omega), ht', Option.map_some]
          have hstep : ∃ d, k.shifts[t.toNat]? = some d ∧ 0 < d ∧ d ≤ pattern.length + 1 ∧
              ∀ q, shift < q → q < shift + d → ¬ OccursAt k.icase pattern text q := by
            rcases hs.2 t htn with ⟨i, g1, g2, g3, g4⟩ | ⟨g1, g2⟩
            · refine ⟨pattern.length - i, g3, by omega, by omega, fun q h1 h2 hq => ?_⟩
              have := g4 (shift + pattern.length - q) (by omega) (hcov q h1 (by omega) hq)
              omega
            · refine ⟨_, g1, by omega, by omega, fun q h1 h2 hq => ?_⟩
              exact g2 (shift + pattern.length - q) (by omega) (hcov q h1 (by omega) hq)
          obtain ⟨d, d1, d2, d3, d4⟩ := hstep
          rw [d1, Option.bind_some]
          have e5 : w32 (shift + d) = shift + d := Nat.mod_eq_of_lt (by omega)
          rw [e5]
          refine ih (shift + d) (by omega) (by omega) ?_
          intro q hq
          rcases Nat.lt_or_ge q shift with h | h
          · exact hnone q h
          · rcases Nat.eq_or_lt_of_le h with h | h
            · rw [← h]; exact hno
            · exact d4 q h hq
    · rw [if_neg c1]
      refine Or.inr ⟨rfl, fun q hq => ?_⟩
      have := hq.1
      rcases Nat.lt_or_ge q shift with h | h
      · exact hnone q h hq
      · omega

/-- C54: on a single block the Sunday search returns the first occurrence, or `UINT_MAX` when there is none, provided that a byte may be read
after the end of the block (as after a C string) and neither pattern nor text (nor that byte) contains the byte 255. What is missing: blocks
that end with the memory, see `sunday_reads_past_end`, and the byte 255, see `sunday_255`. -/
theorem sunday_partial (pattern text rest : List Byte) (b : Byte) (icase : Bool) (fuel : Nat) (hne : text ≠ []) (hp : ∀ c ∈ pattern, c ≠ 255)
    (ht : ∀ c ∈ text ++ [b], c ≠ 255) (hsz : text.length + 2 * pattern.length + 2 < 4294967296) (hf : text.length + pattern.length + 1 < fuel) :
    ∃ k, sundayPrepare pattern icase = some k ∧
      ((∃ p, sundayFind k (text ++ b :: rest) text.length fuel = some p ∧ p < UINT_MAX ∧ FirstFrom icase pattern text 0 p) ∨
       (sundayFind k (text ++ b :: rest) text.length fuel = some UINT_MAX ∧ ∀ q, ¬ OccursAt icase pattern text q)) := by
  obtain ⟨k, e1, e2, e3, e4⟩ := sunday_prepare pattern icase hp
  refine ⟨k, e1, ?_⟩
  subst e2
  have hl : text.length ≠ 0 := fun e => hne (List.length_eq_zero_iff.1 e)
  unfold sundayFind
  rw [if_neg hl]
  rcases sunday_loop k pattern text rest b e3 e4 ht hsz fuel 0 (by omega) (by omega) (fun q h => by omega) with ⟨p, h1, h2⟩ | h
  · have := h2.2.1.1
    exact Or.inl ⟨p, h1, by unfold UINT_MAX; omega, h2⟩
  · exact Or.inr h

/-- C54 fails: searching `ab` in the three bytes `xyb` reads the byte after them. -/
theorem sunday_reads_past_end :
    ((sundayPrepare [97, 98] false).bind fun k => sundayFind k [120, 121, 98] 3 9) = none ∧
    (sundayPrepare [97, 98] false).isSome ∧ ∀ b, ((sundayPrepare [97, 98] false).bind fun k => sundayFind k [120, 121, 98, b] 3 9).isSome ∨ b = 255 := by
  refine ⟨by decide +kernel, by decide +kernel, ?_⟩
  intro b
  rcases Classical.em (b = 255) with e | e
  · exact Or.inr e
  · left
    obtain ⟨k, e1, e2⟩ := sunday_partial [97, 98] [120, 121, 98] [] b false 9 (by decide) (by decide)
      (by
        intro c hc
        rcases List.mem_append.1 hc with h | h
        · clear hc; revert c; decide
        · rw [List.mem_singleton] at h; rw [h]; exact e) (by decide) (by decide)
    rw [e1, Option.bind_some]
    rcases e2 with ⟨p, h, _⟩ | ⟨h, _⟩
    · exact h ▸ rfl
    · exact h ▸ rfl

/-- C54 fails: the table has no entry for the byte 255; a pattern with it is stored outside the table. -/
theorem sunday_255 (pre post : List Byte) (icase : Bool) (hp : ∀ c ∈ pre, c ≠ 255) : sundayPrepare (pre ++ 255 :: post) icase = none := by
  have hfold : fold icase 255 = 255 := by cases icase <;> decide
  have hlow : ∀ tbl : List Nat, tbl.length = 255 → ∀ v, setShift icase tbl 255 v = none := by
    intro tbl h v
    unfold setShift setIdx
    rw [if_neg (by rw [h]; decide)]
    rfl
  have hu : ∀ c : Byte, c ≠ 255 → fold icase c ≠ 255 := by
    cases icase
    · intro c h; exact h
    · decide +kernel
  let pat := (pre ++ 255 :: post).map (fold icase)
  obtain ⟨tbl, e1, e2⟩ := shift_table icase pat pre.length ((pre ++ 255 :: post).length + 1) (fun i => pat.length - i) (sundayBody icase pat)
    (by intro i tbl c _ h; rw [sundayBody, h, Option.bind_some]) (by simp [pat])
    (by
      intro c hc
      obtain ⟨d, _, rfl⟩ := List.mem_map.1 hc
      exact fold_fold icase d)
    (by
      intro i hi h
      simp only [pat] at h
      rw [List.getElem?_map, List.getElem?_append_left hi, List.getElem?_eq_getElem hi, Option.map_some] at h
      exact hu _ (hp _ (List.getElem_mem _)) (Option.some.inj h))
  have hstop : forN (pre.length + 1) (sundayBody icase pat) (List.replicate 255 ((pre ++ 255 :: post).length + 1)) = none := by
    rw [forN, e1, Option.bind_some, sundayBody]
    have : pat[pre.length]? = some 255 := by
      simp only [pat]
      rw [List.getElem?_map, List.getElem?_append_right (Nat.le_refl _), Nat.sub_self]
      simp only [List.getElem?_cons_zero, Option.map_some, hfold]
    rw [this, Option.bind_some, hlow tbl e2.1]
  have hmore : ∀ n, forN (pre.length + 1 + n) (sundayBody icase pat) (List.replicate 255 ((pre ++ 255 :: post).length + 1)) = none := by
    intro n
    induction n with
    | zero => exact hstop
    | succ n ih => rw [← Nat.add_assoc, forN, ih]; rfl
  unfold sundayPrepare
  dsimp only
  have := hmore post.length
  rw [show pre.length + 1 + post.length = (pre ++ 255 :: post).length by simp; omega] at this
  rw [this]
  rfl

/-! A non-trivial case: `abab` in `abcababab`. -/
example : ((sundayPrepare [97, 98, 97, 98] false).bind fun k => sundayFind k [97, 98, 99, 97, 98, 97, 98, 97, 98, 0] 9 20) = some 3 := by
  decide +kernel

end Bfdev.Textsearch

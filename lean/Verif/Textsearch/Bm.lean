import Verif.Textsearch.Sunday
/-!
C54: Boyer-Moore search.
-/
namespace Bfdev.Textsearch

/-- The last character of the pattern occurs nowhere else in it. -/
def LastUnique (P : List Byte) : Prop := ∀ i, i + 1 < P.length → P[i]? ≠ P[P.length - 1]?

theorem subpattern_false (P : List Byte) (h : LastUnique P) (index start : Nat) (j : Int) (hi : 0 < index) (hs : 0 < start)
    (hsum : index + start = P.length) (hj : j < index) (hj2 : 1 - (start : Int) ≤ j) : subpattern P index j start = some false := by
  unfold subpattern
  obtain ⟨g, rfl⟩ := Nat.exists_eq_succ_of_ne_zero (show start ≠ 0 by omega)
  rw [subLoop]
  by_cases c : (j + ((g + 1 : Nat) : Int) - 1).toNat = 0
  · rw [if_pos c]
  · rw [if_neg c]
    have hx : index + (g + 1) - 1 = P.length - 1 := by omega
    have hy : (j + ((g + 1 : Nat) : Int) - 1).toNat + 1 < P.length := by omega
    generalize hy' : (j + ((g + 1 : Nat) : Int) - 1).toNat = y at hy c ⊢
    have hne := h y hy
    rw [hx, List.getElem?_eq_getElem (show P.length - 1 < P.length by omega), List.getElem?_eq_getElem (show y < P.length by omega)] at *
    rw [Option.bind_some, Option.bind_some, if_pos (fun e => hne (by rw [e]))]

theorem goodInner_same (P : List Byte) (h : LastUnique P) (index start : Nat) (hi : 0 < index) (hs : 0 < start)
    (hsum : index + start = P.length) (good : List Nat) : ∀ (n : Nat) (count : Int), count < index → count - n + 1 ≥ 1 - (start : Int) →
    goodInner P index start n count good = some good := by
  intro n
  induction n with
  | zero => intro _ _ _; rfl
  | succ n ih =>
    intro count h1 h2
    rw [goodInner, subpattern_false P h index start count hi hs hsum h1 (by omega), Option.bind_some, if_neg (by decide)]
    exact ih (count - 1) (by omega) (by omega)

/-- When the last character is unique the table is one for no agreement and the whole length otherwise. -/
theorem goodTable_simple (P : List Byte) (hne : P ≠ []) (h : LastUnique P) :
    goodTable P = some ((List.replicate P.length P.length).set 0 1) := by
  have hl : 0 < P.length := List.length_pos_iff.2 hne
  unfold goodTable
  rw [setIdx_some _ (by rw [List.length_replicate]; exact hl), Option.bind_some]
  obtain ⟨t, e1, e2⟩ := forN_inv (P := fun _ t => t = (List.replicate P.length P.length).set 0 1) (P.length - 1) (goodBody P) _ rfl (by
    rintro i hi t rfl
    refine ⟨_, ?_, rfl⟩
    rw [goodBody]
    exact goodInner_same P h _ _ (by omega) (by omega) (by omega) _ _ _ (by omega) (by omega))
  rw [e1, e2]

theorem bm_prepare (pattern : List Byte) (icase : Bool) (hne : pattern ≠ []) (h255 : ∀ c ∈ pattern, c ≠ 255)
    (hu : LastUnique (pattern.map (fold icase))) :
    ∃ k, bmPrepare pattern icase = some k ∧ k.icase = icase ∧ k.pattern = pattern.map (fold icase) ∧
      k.good = (List.replicate pattern.length pattern.length).set 0 1 ∧
      ShiftOk icase k.pattern k.bad (pattern.length - 1) pattern.length (fun i => pattern.length - i - 1) := by
  have hu255 : ∀ c : Byte, c ≠ 255 → fold icase c ≠ 255 := by
    cases icase
    · intro c h; exact h
    · decide +kernel
  obtain ⟨tbl, e1, e2⟩ := shift_table icase (pattern.map (fold icase)) (pattern.length - 1) pattern.length (fun i => pattern.length - i - 1)
    (badBody icase (pattern.map (fold icase)))
    (by intro i tbl c _ h; rw [badBody, h, Option.bind_some, List.length_map]) (by simp)
    (by
      intro c hc
      obtain ⟨d, _, rfl⟩ := List.mem_map.1 hc
      exact fold_fold icase d)
    (by
      intro i hi h
      have hi : i < pattern.length := by omega
      rw [List.getElem?_map, List.getElem?_eq_getElem hi, Option.map_some] at h
      exact hu255 _ (h255 _ (List.getElem_mem _)) (Option.some.inj h))
  refine ⟨⟨icase, pattern.map (fold icase), tbl, (List.replicate pattern.length pattern.length).set 0 1⟩, ?_, rfl, rfl, rfl, e2⟩
  unfold bmPrepare
  dsimp only
  rw [if_neg hne, e1, Option.bind_some, goodTable_simple _ (by simpa using hne) hu, Option.map_some, List.length_map]

/-- The comparison from the end. -/
theorem cmpBack_correct (k : Bm) (mem : List Byte) (shift : Nat) (h1 : shift < mem.length) (h2 : k.pattern.length ≤ shift + 1) :
    ∀ n index, n + index = k.pattern.length →
    (∀ i, i < index → (mem[shift - i]?).map (fold k.icase) = k.pattern[k.pattern.length - 1 - i]?) →
    ∃ m, cmpBack k mem shift n index = some m ∧ m ≤ k.pattern.length ∧
      (∀ i, i < m → (mem[shift - i]?).map (fold k.icase) = k.pattern[k.pattern.length - 1 - i]?) ∧
      (m < k.pattern.length → (mem[shift - m]?).map (fold k.icase) ≠ k.pattern[k.pattern.length - 1 - m]?) := by
  intro n
  induction n with
  | zero => intro index hi h; exact ⟨index, rfl, by omega, h, fun h => by omega⟩
  | succ n ih =>
    intro index hi h
    have hn : n < k.pattern.length := by omega
    have hm : shift - index < mem.length := by omega
    rw [cmpBack, List.getElem?_eq_getElem hn, Option.bind_some, List.getElem?_eq_getElem hm, Option.bind_some]
    by_cases c : k.pattern[n] = fold k.icase mem[shift - index]
    · rw [if_neg (not_not_intro c)]
      refine ih (index + 1) (by omega) ?_
      intro i hi'
      rcases Nat.lt_or_ge i index with hlt | hge
      · exact h i hlt
      · have : i = index := by omega
        subst this
        rw [List.getElem?_eq_getElem hm, Option.map_some, ← c, ← List.getElem?_eq_getElem hn]
        congr 1
        omega
    · rw [if_pos c]
      refine ⟨index, rfl, by omega, h, fun hlt => ?_⟩
      rw [show k.pattern.length - 1 - index = n by omega, List.getElem?_eq_getElem hm, List.getElem?_eq_getElem hn, Option.map_some]
      intro e
      exact c (Option.some.inj e).symm

theorem occurs_back (k : Bm) (pattern mem : List Byte) (hk : k.pattern = pattern.map (fold k.icase)) (shift : Nat) (h1 : shift < mem.length)
    (h2 : pattern.length ≤ shift + 1) :
    OccursAt k.icase pattern mem (shift + 1 - pattern.length) ↔
      ∀ i, i < pattern.length → (mem[shift - i]?).map (fold k.icase) = k.pattern[pattern.length - 1 - i]? := by
  rw [occurs_iff, ← hk]
  constructor
  · rintro ⟨h3, h4⟩ i hi
    have := h4 (pattern.length - 1 - i) (by omega)
    rwa [show shift + 1 - pattern.length + (pattern.length - 1 - i) = shift - i by omega] at this
  · intro h
    refine ⟨by omega, fun i hi => ?_⟩
    have := h (pattern.length - 1 - i) (by omega)
    rwa [show shift - (pattern.length - 1 - i) = shift + 1 - pattern.length + i by omega,
      show pattern.length - 1 - (pattern.length - 1 - i) = i by omega] at this

/-- C54: whatever the tables contain, a position the Boyer-Moore search returns is an occurrence. -/
theorem bm_sound (k : Bm) (pattern mem : List Byte) (hk : k.pattern = pattern.map (fold k.icase)) (hne : pattern ≠ [])
    (hsz : mem.length < 4294967295) : ∀ fuel shift p, pattern.length ≤ shift + 1 → (∀ b ∈ k.bad, b + mem.length < 4294967296) →
    (∀ g ∈ k.good, g + mem.length < 4294967296) → bmLoop k mem fuel shift = some p → p = UINT_MAX ∨ OccursAt k.icase pattern mem p := by
  have hlen : k.pattern.length = pattern.length := by rw [hk, List.length_map]
  intro fuel
  induction fuel with
  | zero => intro _ _ _ _ _ h; exact nomatch h
  | succ fuel ih =>
    intro shift p hs hb hg h
    rw [bmLoop] at h
    split at h
    · rename_i hlt
      obtain ⟨m, e1, e2, e3, e4⟩ := cmpBack_correct k mem shift hlt (by omega) k.pattern.length 0 rfl (fun i hi => by omega)
      rw [e1, Option.bind_some] at h
      split at h
      · rename_i hm
        cases h
        right
        rw [hlen, occurs_back k pattern mem hk shift hlt hs]
        rw [hm, hlen] at e3
        exact e3
      · rename_i hm
        simp only [Option.bind_eq_some_iff] at h
        obtain ⟨t, -, b, hb1, g, hg1, h⟩ := h
        refine ih _ p ?_ hb hg h
        have h1 := hb b (List.mem_of_getElem? hb1)
        have h2 := hg g (List.mem_of_getElem? hg1)
        have h4 : w32 (shift + g) = shift + g := Nat.mod_eq_of_lt (by omega)
        rw [h4]
        omega
    · cases h; exact Or.inl rfl

theorem bm_loop (k : Bm) (pattern mem : List Byte) (hk : k.pattern = pattern.map (fold k.icase)) (hne : pattern ≠ [])
    (hu : LastUnique k.pattern) (hgood : k.good = (List.replicate pattern.length pattern.length).set 0 1)
    (hbad : ShiftOk k.icase k.pattern k.bad (pattern.length - 1) pattern.length (fun i => pattern.length - i - 1))
    (h255 : ∀ c ∈ mem, c ≠ 255) (hsz : mem.length + 2 * pattern.length < 4294967296) :
    ∀ fuel shift, pattern.length ≤ shift + 1 → shift < mem.length + pattern.length → mem.length + pattern.length - shift < fuel →
    (∀ q, q + pattern.length < shift + 1 → ¬ OccursAt k.icase pattern mem q) →
    (∃ p, bmLoop k mem fuel shift = some p ∧ FirstFrom k.icase pattern mem 0 p) ∨
    (bmLoop k mem fuel shift = some UINT_MAX ∧ ∀ q, ¬ OccursAt k.icase pattern mem q) := by
  have hlen : k.pattern.length = pattern.length := by rw [hk, List.length_map]
  have hpl : 0 < pattern.length := List.length_pos_iff.2 hne
  intro fuel
  induction fuel with
  | zero => intro _ _ _ h; omega
  | succ fuel ih =>
    intro shift hs1 hs2 hf hnone
    rw [bmLoop]
    by_cases c1 : shift < mem.length
    · rw [if_pos c1]
      obtain ⟨m, e1, e2, e3, e4⟩ := cmpBack_correct k mem shift c1 (by omega) k.pattern.length 0 rfl (fun i hi => by omega)
      rw [e1, Option.bind_some]
      rw [hlen] at e2 e3 e4 ⊢
      by_cases c2 : m = pattern.length
      · rw [if_pos c2]
        refine Or.inl ⟨_, rfl, Nat.zero_le _, (occurs_back k pattern mem hk shift c1 hs1).2 (c2 ▸ e3), fun q _ hq => ?_⟩
        apply Classical.byContradiction
        intro h
        exact hnone q (by omega) hq
      · rw [if_neg c2]
        have hml : shift - m < mem.length := by omega
        rw [List.getElem?_eq_getElem hml, Option.bind_some]
        have htn : mem[shift - m] ≠ 255 := h255 _ (List.getElem_mem _)
        have hno : ¬ OccursAt k.icase pattern mem (shift + 1 - pattern.length) := by
          rw [occurs_back k pattern mem hk shift c1 hs1]
          intro h
          exact e4 (by omega) (h m (by omega))
        -- an occurrence ending at `s` covers the text character at `shift - i`
        have hcov : ∀ s i, shift < s → s < mem.length → pattern.length ≤ s + 1 → OccursAt k.icase pattern mem (s + 1 - pattern.length) →
            s - (shift - i) < pattern.length → i ≤ shift →
            (mem[shift - i]?).map (fold k.icase) = k.pattern[pattern.length - 1 - (s - (shift - i))]? := by
          intro s i h1 h2 h3 h4 h5 h6
          have := (occurs_back k pattern mem hk s h2 h3).1 h4 (s - (shift - i)) h5
          rwa [show s - (s - (shift - i)) = shift - i by omega] at this
        have hb : ∃ b, k.bad[mem[shift - m].toNat]? = some b ∧ 0 < b ∧ b ≤ pattern.length ∧
            ∀ s, shift < s → s < shift - m + b → s < mem.length → pattern.length ≤ s + 1 → ¬ OccursAt k.icase pattern mem (s + 1 - pattern.length) := by
          rcases hbad.2 _ htn with ⟨i, g1, g2, g3, g4⟩ | ⟨g1, g2⟩
          · refine ⟨pattern.length - i - 1, g3, by omega, by omega, fun s h1 h2 h3 h4 h5 => ?_⟩
            have := hcov s m h1 h3 h4 h5 (by omega) (by omega)
            rw [List.getElem?_eq_getElem hml, Option.map_some] at this
            have := g4 _ (by omega) this.symm
            omega
          · refine ⟨pattern.length, g1, by omega, by omega, fun s h1 h2 h3 h4 h5 => ?_⟩
            have := hcov s m h1 h3 h4 h5 (by omega) (by omega)
            rw [List.getElem?_eq_getElem hml, Option.map_some] at this
            exact g2 _ (by omega) this.symm
        have hg : ∃ g, k.good[m]? = some g ∧ 0 < g ∧ g ≤ pattern.length ∧
            ∀ s, shift < s → s < shift + g → s < mem.length → pattern.length ≤ s + 1 → ¬ OccursAt k.icase pattern mem (s + 1 - pattern.length) := by
          rcases Nat.eq_zero_or_pos m with e | e
          · subst e
            refine ⟨1, by rw [hgood, List.getElem?_set_self (by rw [List.length_replicate]; exact hpl)], by omega, by omega, fun s h1 h2 => by omega⟩
          · refine ⟨pattern.length, by rw [hgood, List.getElem?_set_ne (by omega), List.getElem?_replicate, if_pos (by omega)], by omega, by omega, ?_⟩
            intro s h1 h2 h3 h4 h5
            have h6 := hcov s 0 h1 h3 h4 h5 (by omega) (by omega)
            have h7 := e3 0 e
            rw [h7, Nat.sub_zero, Nat.sub_zero] at h6
            refine hu (pattern.length - 1 - (s - shift)) (by rw [hlen]; omega) ?_
            rw [hlen]
            exact h6.symm
        obtain ⟨b, b1, b2, b3, b4⟩ := hb
        obtain ⟨g, g1, g2, g3, g4⟩ := hg
        rw [b1, Option.bind_some, g1, Option.bind_some]
        have e5 : w32 (shift - m + b) = shift - m + b := Nat.mod_eq_of_lt (by omega)
        have e6 : w32 (shift + g) = shift + g := Nat.mod_eq_of_lt (by omega)
        rw [e5, e6]
        refine ih _ (by omega) (by omega) (by omega) ?_
        intro q hq hocc
        rcases Nat.lt_or_ge (q + pattern.length) (shift + 1) with h | h
        · exact hnone q h hocc
        · rcases Nat.eq_or_lt_of_le h with h | h
          · rw [show q = shift + 1 - pattern.length by omega] at hocc; exact hno hocc
          · have hq' : q = q + pattern.length - 1 + 1 - pattern.length := by omega
            have hq1 := hocc.1
            rw [hq'] at hocc
            rcases Nat.lt_or_ge (q + pattern.length - 1) (shift + g) with h8 | h8
            · exact g4 _ (by omega) h8 (by omega) (by omega) hocc
            · exact b4 _ (by omega) (by omega) (by omega) (by omega) hocc
    · rw [if_neg c1]
      refine Or.inr ⟨rfl, fun q hq => ?_⟩
      have := hq.1
      exact hnone q (by omega) hq

/-- C54: on a single block the Boyer-Moore search returns the first occurrence, or `UINT_MAX` when there is none, when the last character
of the pattern occurs nowhere else in it and neither pattern nor text contains the byte 255. What is missing: patterns that repeat their last
character, see `bm_violated`, and the byte 255. -/
theorem bm_partial (pattern text : List Byte) (icase : Bool) (fuel : Nat) (hne : pattern ≠ []) (hp : ∀ c ∈ pattern, c ≠ 255)
    (hu : LastUnique (pattern.map (fold icase))) (ht : ∀ c ∈ text, c ≠ 255) (hsz : text.length + 2 * pattern.length < 4294967296)
    (hf : text.length + pattern.length < fuel) :
    ∃ k, bmPrepare pattern icase = some k ∧
      ((∃ p, bmFind k text fuel = some p ∧ p < UINT_MAX ∧ FirstFrom icase pattern text 0 p) ∨
       (bmFind k text fuel = some UINT_MAX ∧ ∀ q, ¬ OccursAt icase pattern text q)) := by
  obtain ⟨k, e1, e2, e3, e4, e5⟩ := bm_prepare pattern icase hne hp hu
  refine ⟨k, e1, ?_⟩
  subst e2
  have hpl : 0 < pattern.length := List.length_pos_iff.2 hne
  unfold bmFind
  by_cases c : text = []
  · rw [if_pos c]
    refine Or.inr ⟨rfl, fun q hq => ?_⟩
    have := hq.1
    rw [c, List.length_nil] at this
    omega
  · rw [if_neg c, show k.pattern.length = pattern.length by rw [e3, List.length_map]]
    have htl : 0 < text.length := List.length_pos_iff.2 c
    rcases bm_loop k pattern text e3 hne (by rw [e3]; exact hu) e4 e5 ht hsz fuel (pattern.length - 1) (by omega) (by omega) (by omega)
      (fun q h => by omega) with ⟨p, h1, h2⟩ | h
    · have := h2.2.1.1
      exact Or.inl ⟨p, h1, by unfold UINT_MAX; omega, h2⟩
    · exact Or.inr h

/-- C54 fails: the pattern `aa` is not found in `xaa`, where it occurs at 1. -/
theorem bm_violated : ((bmPrepare [97, 97] false).bind fun k => bmFind k [120, 97, 97] 9) = some UINT_MAX ∧
    OccursAt false [97, 97] [120, 97, 97] 1 := by
  refine ⟨by decide +kernel, ?_⟩
  unfold OccursAt
  decide

/-- C54 fails: a pattern with the byte 255 before its end is stored outside the table, whatever follows. -/
theorem bm_255 (c : Byte) (post : List Byte) : bmPrepare (255 :: c :: post) false = none := by
  have h1 : ∀ n (P : List Byte) (tbl : List Nat), P[0]? = some 255 → tbl.length = 255 → forN (n + 1) (badBody false P) tbl = none := by
    intro n
    induction n with
    | zero =>
      intro P tbl h hl
      rw [forN, forN, Option.bind_some, badBody, h, Option.bind_some, setShift, setIdx, if_neg (by rw [hl]; decide)]
      rfl
    | succ n ih => intro P tbl h hl; rw [forN, ih P tbl h hl]; rfl
  unfold bmPrepare
  dsimp only
  rw [if_neg (by simp)]
  have := h1 post.length ((255 :: c :: post).map (fold false)) (List.replicate 255 (255 :: c :: post).length) rfl List.length_replicate
  rw [show (255 :: c :: post).length - 1 = post.length + 1 by simp, this]
  rfl

/-! A non-trivial case: `abac` in `ababacabac`. -/
example : ((bmPrepare [97, 98, 97, 99] false).bind fun k => bmFind k [97, 98, 97, 98, 97, 99, 97, 98, 97, 99] 20) = some 2 := by decide +kernel
example : LastUnique [97, 98, 97, 99] := by
  intro i hi
  have : i = 0 ∨ i = 1 ∨ i = 2 := by simp only [List.length_cons, List.length_nil] at hi; omega
  rcases this with rfl | rfl | rfl <;> decide

end Bfdev.Textsearch

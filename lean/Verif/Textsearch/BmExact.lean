import Verif.Textsearch.Bm
/-!
C54: exactly which patterns the Boyer-Moore search finds in every text.
-/
namespace Bfdev.Textsearch

/-- A place of the text where the last `m` characters of the pattern agree and the one before does not says nothing against the pattern standing `d` further on. -/
def Possible (P : List Byte) (m d : Nat) : Prop :=
  (∀ j, j < m → d + j < P.length → P[P.length - 1 - (d + j)]? = P[P.length - 1 - j]?) ∧ (d + m < P.length → P[P.length - 1 - (d + m)]? ≠ P[P.length - 1 - m]?)

instance (P : List Byte) (m d : Nat) : Decidable (Possible P m d) := by unfold Possible; infer_instance

/-- The table of shifts never skips a place that is still possible. -/
def NoSkip (P : List Byte) (good : List Nat) : Prop := ∀ m, m < P.length → ∀ d, d < P.length → 0 < d → d < good.getD m 0 → ¬ Possible P m d

instance (P : List Byte) (good : List Nat) : Decidable (NoSkip P good) := by unfold NoSkip; infer_instance

/-- The search is right about a text: it returns the first occurrence, or `UINT_MAX` if there is none. -/
def RightAbout (k : Bm) (icase : Bool) (pattern text : List Byte) (fuel : Nat) : Prop :=
  (∃ p, bmFind k text fuel = some p ∧ p < UINT_MAX ∧ FirstFrom icase pattern text 0 p) ∨
    (bmFind k text fuel = some UINT_MAX ∧ ∀ q, ¬ OccursAt icase pattern text q)

/-! ### The table -/

theorem subLoop_defined (P : List Byte) (index : Nat) (j : Int) : ∀ (g x y : Nat), 0 < g → x < P.length → y < P.length → g ≤ x + 1 → (y : Int) = j + g - 1 → 0 < index →
    index ≤ P.length → ∃ b, subLoop P index j g x y = some b ∧ (b = true → 1 ≤ j) := by
  intro g
  induction g with
  | zero => intro _ _ h; omega
  | succ g ih =>
    intro x y _ hx hy hgx hyj hi hil
    rw [subLoop]
    by_cases c : y = 0
    · exact ⟨false, by rw [if_pos c], by simp⟩
    · rw [if_neg c, List.getElem?_eq_getElem hx, List.getElem?_eq_getElem hy, Option.bind_some, Option.bind_some]
      by_cases c2 : P[x] ≠ P[y]
      · exact ⟨false, by rw [if_pos c2], by simp⟩
      · rw [if_neg c2]
        by_cases c3 : g = 0
        · have hj : 1 ≤ j := by omega
          rw [if_pos c3, if_neg (by omega), List.getElem?_eq_getElem (show index - 1 < P.length by omega), Option.bind_some,
            List.getElem?_eq_getElem (show (j - 1).toNat < P.length by omega), Option.map_some]
          exact ⟨_, rfl, fun _ => hj⟩
        · rw [if_neg c3]
          exact ih (x - 1) (y - 1) (by omega) (by omega) (by omega) (by omega) (by omega) hi hil

/-- What holds of the table at every moment. -/
def TableOk (n : Nat) (good : List Nat) : Prop := good.length = n ∧ good[0]? = some 1 ∧ ∀ g ∈ good, 0 < g ∧ g ≤ n

theorem goodInner_ok (P : List Byte) (index start : Nat) (hi : 0 < index) (hs : 0 < start) (hsum : index + start = P.length) {good : List Nat}
    (h : TableOk P.length good) : ∀ (n : Nat) (count : Int), count < index → count - n + 1 ≥ 1 - (start : Int) →
    ∃ good', goodInner P index start n count good = some good' ∧ TableOk P.length good' := by
  intro n
  induction n with
  | zero => intro _ _ _; exact ⟨good, rfl, h⟩
  | succ n ih =>
    intro count h1 h2
    obtain ⟨b, e, hb⟩ := subLoop_defined P index count start (index + start - 1) (count + start - 1).toNat hs (by omega) (by omega) (by omega) (by omega) hi (by omega)
    rw [goodInner, subpattern, e, Option.bind_some]
    cases b with
    | false => rw [if_neg (by decide)]; exact ih (count - 1) (by omega) (by omega)
    | true =>
      have hc := hb rfl
      rw [if_pos rfl, if_neg (by omega), setIdx_some _ (by rw [h.1]; omega)]
      refine ⟨_, rfl, by rw [List.length_set]; exact h.1, by rw [List.getElem?_set_ne (by omega)]; exact h.2.1, fun g hg => ?_⟩
      rcases List.mem_or_eq_of_mem_set hg with hg | hg
      · exact h.2.2 g hg
      · omega

theorem goodTable_ok (P : List Byte) (hne : P ≠ []) : ∃ good, goodTable P = some good ∧ TableOk P.length good := by
  have hl : 0 < P.length := List.length_pos_iff.2 hne
  unfold goodTable
  rw [setIdx_some _ (by rw [List.length_replicate]; exact hl), Option.bind_some]
  refine forN_inv (P := fun _ t => TableOk P.length t) (P.length - 1) (goodBody P) _ ?_ ?_
  · refine ⟨by simp, by rw [List.getElem?_set_self (by simpa using hl)], fun g hg => ?_⟩
    rcases List.mem_or_eq_of_mem_set hg with hg | hg
    · rw [List.eq_of_mem_replicate hg]; omega
    · omega
  · intro i hi t ht
    exact goodInner_ok P _ _ (by omega) (by omega) (by omega) ht _ _ (by omega) (by omega)

theorem fold_ne_255 (icase : Bool) : ∀ c : Byte, c ≠ 255 → fold icase c ≠ 255 := by
  cases icase
  · intro c h; exact h
  · decide +kernel

theorem bm_prepare_any (pattern : List Byte) (icase : Bool) (hne : pattern ≠ []) (h255 : ∀ c ∈ pattern, c ≠ 255) :
    ∃ k, bmPrepare pattern icase = some k ∧ k.icase = icase ∧ k.pattern = pattern.map (fold icase) ∧ TableOk pattern.length k.good ∧
      ShiftOk icase k.pattern k.bad (pattern.length - 1) pattern.length (fun i => pattern.length - i - 1) := by
  obtain ⟨tbl, e1, e2⟩ := shift_table icase (pattern.map (fold icase)) (pattern.length - 1) pattern.length (fun i => pattern.length - i - 1)
    (badBody icase (pattern.map (fold icase)))
    (by intro i tbl c _ h; rw [badBody, h, Option.bind_some, List.length_map]) (by simp)
    (by
      intro c hc
      obtain ⟨d, _, rfl⟩ := List.mem_map.1 hc
      exact fold_fold icase d)
    (by
      intro i hi h
      have hi : i < pattern.length := by omega
      rw [List.getElem?_map, List.getElem?_eq_getElem hi, Option.map_some] at h
      exact fold_ne_255 icase _ (h255 _ (List.getElem_mem _)) (Option.some.inj h))
  obtain ⟨good, g1, g2⟩ := goodTable_ok (pattern.map (fold icase)) (by simpa using hne)
  rw [List.length_map] at g2
  refine ⟨⟨icase, pattern.map (fold icase), tbl, good⟩, ?_, rfl, rfl, g2, e2⟩
  unfold bmPrepare
  dsimp only
  rw [if_neg hne, e1, Option.bind_some, g1, Option.map_some]

/-! ### One direction: nothing possible is skipped -/

theorem bm_loop_any (k : Bm) (pattern mem : List Byte) (hk : k.pattern = pattern.map (fold k.icase)) (hne : pattern ≠ [])
    (hT : TableOk pattern.length k.good) (hS : NoSkip k.pattern k.good)
    (hbad : ShiftOk k.icase k.pattern k.bad (pattern.length - 1) pattern.length (fun i => pattern.length - i - 1))
    (h255 : ∀ c ∈ mem, c ≠ 255) (hsz : mem.length + 2 * pattern.length < 4294967296) :
    ∀ fuel shift, pattern.length ≤ shift + 1 → shift < mem.length + pattern.length → mem.length + pattern.length - shift < fuel →
    (∀ q, q + pattern.length < shift + 1 → ¬ OccursAt k.icase pattern mem q) →
    (∃ p, bmLoop k mem fuel shift = some p ∧ FirstFrom k.icase pattern mem 0 p) ∨
    (bmLoop k mem fuel shift = some UINT_MAX ∧ ∀ q, ¬ OccursAt k.icase pattern mem q) := by
  have hlen : k.pattern.length = pattern.length := by rw [hk, List.length_map]
  have hpl : 0 < pattern.length := List.length_pos_iff.2 hne
  intro fuel
  induction fuel with
  | zero => intro _ _ _ h; omega
  | succ fuel ih =>
    intro shift hs1 hs2 hf hnone
    rw [bmLoop]
    by_cases c1 : shift < mem.length
    · rw [if_pos c1]
      obtain ⟨m, e1, e2, e3, e4⟩ := cmpBack_correct k mem shift c1 (by omega) k.pattern.length 0 rfl (fun i hi => by omega)
      rw [e1, Option.bind_some]
      rw [hlen] at e2 e3 e4 ⊢
      by_cases c2 : m = pattern.length
      · rw [if_pos c2]
        refine Or.inl ⟨_, rfl, Nat.zero_le _, (occurs_back k pattern mem hk shift c1 hs1).2 (c2 ▸ e3), fun q _ hq => ?_⟩
        apply Classical.byContradiction
        intro h
        exact hnone q (by omega) hq
      · rw [if_neg c2]
        have hml : shift - m < mem.length := by omega
        rw [List.getElem?_eq_getElem hml, Option.bind_some]
        have htn : mem[shift - m] ≠ 255 := h255 _ (List.getElem_mem _)
        have hno : ¬ OccursAt k.icase pattern mem (shift + 1 - pattern.length) := by
          rw [occurs_back k pattern mem hk shift c1 hs1]
          intro h
          exact e4 (by omega) (h m (by omega))
        have hcov : ∀ s i, shift < s → s < mem.length → pattern.length ≤ s + 1 → OccursAt k.icase pattern mem (s + 1 - pattern.length) →
            s - (shift - i) < pattern.length → i ≤ shift →
            (mem[shift - i]?).map (fold k.icase) = k.pattern[pattern.length - 1 - (s - (shift - i))]? := by
          intro s i h1 h2 h3 h4 h5 h6
          have := (occurs_back k pattern mem hk s h2 h3).1 h4 (s - (shift - i)) h5
          rwa [show s - (s - (shift - i)) = shift - i by omega] at this
        have hb : ∃ b, k.bad[mem[shift - m].toNat]? = some b ∧ 0 < b ∧ b ≤ pattern.length ∧
            ∀ s, shift < s → s < shift - m + b → s < mem.length → pattern.length ≤ s + 1 → ¬ OccursAt k.icase pattern mem (s + 1 - pattern.length) := by
          rcases hbad.2 _ htn with ⟨i, g1, g2, g3, g4⟩ | ⟨g1, g2⟩
          · refine ⟨pattern.length - i - 1, g3, by omega, by omega, fun s h1 h2 h3 h4 h5 => ?_⟩
            have := hcov s m h1 h3 h4 h5 (by omega) (by omega)
            rw [List.getElem?_eq_getElem hml, Option.map_some] at this
            have := g4 _ (by omega) this.symm
            omega
          · refine ⟨pattern.length, g1, by omega, by omega, fun s h1 h2 h3 h4 h5 => ?_⟩
            have := hcov s m h1 h3 h4 h5 (by omega) (by omega)
            rw [List.getElem?_eq_getElem hml, Option.map_some] at this
            exact g2 _ (by omega) this.symm
        have hg : ∃ g, k.good[m]? = some g ∧ 0 < g ∧ g ≤ pattern.length ∧
            ∀ s, shift < s → s < shift + g → s < mem.length → pattern.length ≤ s + 1 → ¬ OccursAt k.icase pattern mem (s + 1 - pattern.length) := by
          have hmg : m < k.good.length := by rw [hT.1]; omega
          obtain ⟨p1, p2⟩ := hT.2.2 _ (List.getElem_mem hmg)
          refine ⟨k.good[m], List.getElem?_eq_getElem hmg, p1, p2, fun s h1 h2 h3 h4 h5 => ?_⟩
          refine hS m (by omega) (s - shift) (by omega) (by omega) (by rw [List.getD_eq_getElem?_getD, List.getElem?_eq_getElem hmg]; exact (by omega : s - shift < k.good[m])) ⟨fun j hj hd => ?_, fun hd => ?_⟩
          · rw [hlen] at hd ⊢
            have h6 := hcov s j h1 h3 h4 h5 (by omega) (by omega)
            rw [e3 j hj, show s - (shift - j) = s - shift + j by omega] at h6
            exact h6.symm
          · rw [hlen] at hd ⊢
            have h6 := hcov s m h1 h3 h4 h5 (by omega) (by omega)
            rw [show s - (shift - m) = s - shift + m by omega] at h6
            rw [← h6]
            exact e4 (by omega)
        obtain ⟨b, b1, b2, b3, b4⟩ := hb
        obtain ⟨g, g1, g2, g3, g4⟩ := hg
        rw [b1, Option.bind_some, g1, Option.bind_some]
        have e5 : w32 (shift - m + b) = shift - m + b := Nat.mod_eq_of_lt (by omega)
        have e6 : w32 (shift + g) = shift + g := Nat.mod_eq_of_lt (by omega)
        rw [e5, e6]
        refine ih _ (by omega) (by omega) (by omega) ?_
        intro q hq hocc
        rcases Nat.lt_or_ge (q + pattern.length) (shift + 1) with h | h
        · exact hnone q h hocc
        · rcases Nat.eq_or_lt_of_le h with h | h
          · rw [show q = shift + 1 - pattern.length by omega] at hocc; exact hno hocc
          · have hq' : q = q + pattern.length - 1 + 1 - pattern.length := by omega
            have hq1 := hocc.1
            rw [hq'] at hocc
            rcases Nat.lt_or_ge (q + pattern.length - 1) (shift + g) with h8 | h8
            · exact g4 _ (by omega) h8 (by omega) (by omega) hocc
            · exact b4 _ (by omega) (by omega) (by omega) (by omega) hocc
    · rw [if_neg c1]
      refine Or.inr ⟨rfl, fun q hq => ?_⟩
      have := hq.1
      exact hnone q (by omega) hq

/-! ### The other direction: a text in which a skipped occurrence is missed -/

/-- A byte that is not `255`, and compares different from `c` with and without case. -/
def other (c : Option Byte) : Byte := if c = some 0 then 1 else 0

theorem other_ok (icase : Bool) (c : Option Byte) : some (fold icase (other c)) ≠ c ∧ other c ≠ 255 := by
  unfold other
  split
  · next h => rw [h]; cases icase <;> decide
  · next h =>
    refine ⟨fun e => h ?_, by decide⟩
    rw [← e]; cases icase <;> decide

/-- `d` bytes that let the last `m` characters of the pattern agree, and no more, followed by the pattern. -/
def trap (P : List Byte) (m d : Nat) : List Byte :=
  (List.range d).map (fun i => if i + m + 1 = P.length then other P[i]? else P.getD i 0) ++ P

theorem trap_front (P : List Byte) (m d i : Nat) (h : i < d) : (trap P m d)[i]? = some (if i + m + 1 = P.length then other P[i]? else P.getD i 0) := by
  rw [trap, List.getElem?_append_left (by simpa using h), List.getElem?_map, List.getElem?_range h, Option.map_some]

theorem trap_back (P : List Byte) (m d i : Nat) : (trap P m d)[d + i]? = P[i]? := by
  rw [trap, List.getElem?_append_right (by simp), List.length_map, List.length_range, Nat.add_sub_cancel_left]

theorem trap_length (P : List Byte) (m d : Nat) : (trap P m d).length = d + P.length := by simp [trap]

theorem trap_fooled (k : Bm) (pattern : List Byte) (hk : k.pattern = pattern.map (fold k.icase)) (hne : pattern ≠ []) (hp : ∀ c ∈ pattern, c ≠ 255)
    (hT : TableOk pattern.length k.good)
    (hbad : ShiftOk k.icase k.pattern k.bad (pattern.length - 1) pattern.length (fun i => pattern.length - i - 1)) {m d : Nat} (hm : m < pattern.length)
    (hd : d < pattern.length) (hd0 : 0 < d) (hg : d < k.good.getD m 0) (hP : Possible k.pattern m d) (hsz : 4 * pattern.length < 4294967296) (fuel : Nat) (hf : 1 < fuel) :
    (∀ c ∈ trap k.pattern m d, c ≠ 255) ∧ OccursAt k.icase pattern (trap k.pattern m d) d ∧ bmFind k (trap k.pattern m d) fuel = some UINT_MAX := by
  have hlen : k.pattern.length = pattern.length := by rw [hk, List.length_map]
  have hff : ∀ i : Nat, (k.pattern[i]?).map (fold k.icase) = k.pattern[i]? := by
    intro i
    rw [hk, List.getElem?_map, Option.map_map]
    congr 1
    funext c
    exact fold_fold _ c
  have h255 : ∀ c ∈ trap k.pattern m d, c ≠ 255 := by
    intro c hc
    have hPc : ∀ c ∈ k.pattern, c ≠ 255 := by
      intro c hc
      rw [hk] at hc
      obtain ⟨b, hb, rfl⟩ := List.mem_map.1 hc
      exact fold_ne_255 _ b (hp b hb)
    rcases List.mem_append.1 hc with h | h
    · obtain ⟨i, hi, rfl⟩ := List.mem_map.1 h
      have hi := List.mem_range.1 hi
      split
      · exact (other_ok false _).2
      · rw [List.getD_eq_getElem?_getD, List.getElem?_eq_getElem (show i < k.pattern.length by omega)]
        exact hPc _ (List.getElem_mem _)
    · exact hPc c h
  have hocc : OccursAt k.icase pattern (trap k.pattern m d) d := by
    rw [occurs_iff, trap_length, hlen]
    exact ⟨Nat.le_refl _, fun i hi => by rw [trap_back, hff, hk]⟩
  refine ⟨h255, hocc, ?_⟩
  have hlt : pattern.length - 1 < (trap k.pattern m d).length := by rw [trap_length]; omega
  -- the character compared with character `n - 1 - j` of the pattern
  have hchar : ∀ j, j < pattern.length → ((trap k.pattern m d)[pattern.length - 1 - j]?).map (fold k.icase) =
      if d + j < pattern.length then k.pattern[pattern.length - 1 - (d + j)]? else if j = m then some (fold k.icase (other k.pattern[pattern.length - 1 - j]?)) else k.pattern[pattern.length - 1 - j]? := by
    intro j hj
    split
    · rw [show pattern.length - 1 - j = d + (pattern.length - 1 - (d + j)) by omega, trap_back, hff]
    · rw [trap_front _ _ _ _ (by omega), Option.map_some]
      by_cases e : j = m
      · rw [if_pos e, if_pos (by omega)]
      · have := hff (pattern.length - 1 - j)
        rw [if_neg e, if_neg (by omega), List.getD_eq_getElem?_getD]
        rw [List.getElem?_eq_getElem (show pattern.length - 1 - j < k.pattern.length by omega)] at this ⊢
        exact this
  obtain ⟨fuel, rfl⟩ : ∃ n, fuel = n + 2 := ⟨fuel - 2, by omega⟩
  unfold bmFind
  rw [if_neg (by intro e; rw [e] at hlt; simp at hlt), hlen, bmLoop, if_pos hlt]
  obtain ⟨m', e1, e2, e3, e4⟩ := cmpBack_correct k (trap k.pattern m d) (pattern.length - 1) hlt (by omega) k.pattern.length 0 rfl (fun i hi => by omega)
  rw [hlen] at e1 e2 e3 e4
  rw [hlen, e1, Option.bind_some]
  have hmm : m' = m := by
    rcases Nat.lt_trichotomy m' m with h | h | h
    · exfalso
      apply e4 (by omega)
      rw [hchar m' (by omega)]
      split
      · next hl => have := hP.1 m' h (by omega); rwa [hlen] at this
      · rw [if_neg (by omega)]
    · exact h
    · exfalso
      have := e3 m h
      rw [hchar m hm] at this
      split at this
      · next hl => have h2 := hP.2 (by omega); rw [hlen] at h2; exact h2 this
      · rw [if_pos rfl] at this
        exact (other_ok k.icase _).1 this
  subst hmm
  rw [if_neg (by omega)]
  have hml : pattern.length - 1 - m' < (trap k.pattern m' d).length := by omega
  have hmg : m' < k.good.length := by rw [hT.1]; omega
  obtain ⟨-, p2⟩ := hT.2.2 _ (List.getElem_mem hmg)
  rw [List.getD_eq_getElem?_getD, List.getElem?_eq_getElem hmg] at hg
  have hg : d < k.good[m'] := hg
  have htn : (trap k.pattern m' d)[pattern.length - 1 - m'] ≠ 255 := h255 _ (List.getElem_mem _)
  obtain ⟨b, hb⟩ : ∃ b, k.bad[((trap k.pattern m' d)[pattern.length - 1 - m']).toNat]? = some b := by
    rcases hbad.2 _ htn with ⟨i, -, -, g3, -⟩ | ⟨g1, -⟩
    · exact ⟨_, g3⟩
    · exact ⟨_, g1⟩
  rw [List.getElem?_eq_getElem hml, Option.bind_some, hb, Option.bind_some, List.getElem?_eq_getElem hmg, Option.bind_some, bmLoop, if_neg]
  rw [trap_length, hlen, show w32 (pattern.length - 1 + k.good[m']) = pattern.length - 1 + k.good[m'] from Nat.mod_eq_of_lt (by omega)]
  omega

/-! ### The property -/

/-- C54: for every pattern without the byte 255, the Boyer-Moore search is right about all texts without the byte 255 if and only if its table of shifts for
partial agreement skips no place that is still possible; preparing it is always well defined. (What is missing in C54 are the patterns whose table does skip,
and the byte 255.) -/
theorem bm_exact_partial (pattern : List Byte) (icase : Bool) (hne : pattern ≠ []) (hp : ∀ c ∈ pattern, c ≠ 255) (hsz : 4 * pattern.length < 4294967296) :
    ∃ k, bmPrepare pattern icase = some k ∧
      ((∀ text fuel, (∀ c ∈ text, c ≠ 255) → text.length + 2 * pattern.length < 4294967296 → text.length + pattern.length < fuel →
          RightAbout k icase pattern text fuel) ↔ NoSkip (pattern.map (fold icase)) k.good) := by
  obtain ⟨k, e1, e2, e3, e4, e5⟩ := bm_prepare_any pattern icase hne hp
  subst e2
  have hpl : 0 < pattern.length := List.length_pos_iff.2 hne
  have hlen : k.pattern.length = pattern.length := by rw [e3, List.length_map]
  refine ⟨k, e1, fun h => ?_, fun h text fuel ht hsz hf => ?_⟩
  · rw [← e3]
    intro m hm d hd hd0 hg hP
    rw [hlen] at hm hd
    obtain ⟨a1, a2, a3⟩ := trap_fooled k pattern e3 hne hp e4 e5 hm hd hd0 hg hP hsz (4 * pattern.length + 2) (by omega)
    have hl := trap_length k.pattern m d
    rcases h (trap k.pattern m d) (4 * pattern.length + 2) a1 (by omega) (by omega) with ⟨p, b1, b2, -⟩ | ⟨-, b⟩
    · rw [a3] at b1
      have := Option.some.inj b1
      omega
    · exact b d a2
  · rw [← e3] at h
    unfold RightAbout bmFind
    by_cases c : text = []
    · rw [if_pos c]
      refine Or.inr ⟨rfl, fun q hq => ?_⟩
      have := hq.1
      rw [c, List.length_nil] at this
      omega
    · rw [if_neg c, hlen]
      have htl : 0 < text.length := List.length_pos_iff.2 c
      rcases bm_loop_any k pattern text e3 hne e4 h e5 ht hsz fuel (pattern.length - 1) (by omega) (by omega) (by omega)
        (fun q h => by omega) with ⟨p, h1, h2⟩ | h
      · have := h2.2.1.1
        exact Or.inl ⟨p, h1, by unfold UINT_MAX; omega, h2⟩
      · exact Or.inr h

/-- C54 fails for every pattern that repeats, from its end on, with a period shorter than itself: it is missed where it follows its own last characters. -/
theorem bm_periodic_violated (pattern : List Byte) (icase : Bool) (hp : ∀ c ∈ pattern, c ≠ 255) (hsz : 4 * pattern.length < 4294967296) (d : Nat)
    (hd0 : 0 < d) (hd : d < pattern.length) (hper : ∀ j, d + j < pattern.length → (pattern.map (fold icase))[j]? = (pattern.map (fold icase))[d + j]?)
    (k : Bm) (hk : bmPrepare pattern icase = some k) (hgood : d < k.good.getD (pattern.length - d) 0) :
    ∃ text, OccursAt icase pattern text d ∧ ∀ fuel, 1 < fuel → bmFind k text fuel = some UINT_MAX := by
  have hne : pattern ≠ [] := fun e => by rw [e] at hd; simp at hd
  obtain ⟨k', e1, e2, e3, e4, e5⟩ := bm_prepare_any pattern icase hne hp
  cases hk.symm.trans e1
  subst e2
  have hlen : k.pattern.length = pattern.length := by rw [e3, List.length_map]
  have hP : Possible k.pattern (pattern.length - d) d := by
    refine ⟨fun j hj h => ?_, fun h => by rw [hlen] at h; omega⟩
    rw [hlen] at h ⊢
    have := hper (pattern.length - 1 - (d + j)) (by omega)
    rw [← e3] at this
    rw [this]
    congr 1
    omega
  exact ⟨trap k.pattern (pattern.length - d) d, (trap_fooled k pattern e3 hne hp e4 e5 (by omega) hd hd0 hgood hP hsz 2 (by omega)).2.1,
    fun fuel hf => (trap_fooled k pattern e3 hne hp e4 e5 (by omega) hd hd0 hgood hP hsz fuel hf).2.2⟩

/-! ### Concrete cases -/

-- `bcc` repeats its last character and is still found everywhere; `aa` and `aba` are not
example : (bmPrepare [98, 99, 99] false).map (·.good) = some [1, 1, 3] ∧ NoSkip [98, 99, 99] [1, 1, 3] ∧ ¬ LastUnique [98, 99, 99] := by
  refine ⟨by decide +kernel, by decide +kernel, fun h => h 1 (by decide) rfl⟩
example : (bmPrepare [97, 98, 97] false).map (·.good) = some [1, 3, 3] ∧ ¬ NoSkip [97, 98, 97] [1, 3, 3] := ⟨by decide +kernel, by decide +kernel⟩
example : trap [97, 98, 97] 1 2 = [97, 0, 97, 98, 97] ∧ ((bmPrepare [97, 98, 97] false).bind fun k => bmFind k [97, 0, 97, 98, 97] 9) = some UINT_MAX := by decide +kernel
-- the hypotheses of `bm_periodic_violated`: `abab`, with period 2
example : (bmPrepare [97, 98, 97, 98] true).map (fun k => k.good.getD (4 - 2) 0) = some 4 := by decide +kernel

end Bfdev.Textsearch

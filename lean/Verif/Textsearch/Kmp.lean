import Verif.Textsearch.Spec
/-!
C53: Knuth-Morris-Pratt search.
-/
namespace Bfdev.Textsearch

theorem suffix_snoc {α : Type} {l s : List α} {a c : α} : l ++ [a] <:+ s ++ [c] ↔ a = c ∧ l <:+ s := by
  constructor
  · rintro ⟨t, h⟩
    rw [← List.append_assoc] at h
    have := List.append_inj' h rfl
    exact ⟨by simpa using this.2, ⟨t, this.1⟩⟩
  · rintro ⟨rfl, t, h⟩
    exact ⟨t, by rw [← h, List.append_assoc]⟩

/-- The first `k` characters of the pattern end the string `s`. -/
def B (P s : List Byte) (k : Nat) : Prop := k ≤ P.length ∧ P.take k <:+ s

theorem B_zero (P s : List Byte) : B P s 0 := ⟨Nat.zero_le _, by simp⟩

theorem B_snoc {P s : List Byte} {c : Byte} {k : Nat} : B P (s ++ [c]) (k + 1) ↔ B P s k ∧ P[k]? = some c := by
  unfold B
  constructor
  · rintro ⟨h1, h2⟩
    have hk : k < P.length := by omega
    rw [List.take_succ_eq_append_getElem hk, suffix_snoc] at h2
    exact ⟨⟨by omega, h2.2⟩, by rw [List.getElem?_eq_getElem hk, h2.1]⟩
  · rintro ⟨⟨h1, h2⟩, h3⟩
    obtain ⟨hk, e⟩ := List.getElem?_eq_some_iff.1 h3
    refine ⟨by omega, ?_⟩
    rw [List.take_succ_eq_append_getElem hk, suffix_snoc]
    exact ⟨e, h2⟩

theorem B_len {P s : List Byte} {k : Nat} (h : B P s k) : k ≤ s.length := by
  have h1 := h.1
  have := h.2.length_le
  rw [List.length_take] at this
  omega

theorem B_le {P s : List Byte} {i k : Nat} (hi : B P s i) (hk : B P s k) (h : i ≤ k) : P.take i <:+ P.take k :=
  List.suffix_of_suffix_length_le hi.2 hk.2 (by rw [List.length_take, List.length_take]; omega)

/-- The first `n` entries of the table hold the longest proper borders. -/
def TblOk (P : List Byte) (tbl : List Nat) (n : Nat) : Prop :=
  ∀ k, 0 < k → k ≤ n → ∃ j, tbl[k - 1]? = some j ∧ j < k ∧ P.take j <:+ P.take k ∧ ∀ i, i < k → P.take i <:+ P.take k → i ≤ j

theorem fall_correct (P s : List Byte) (tbl : List Nat) (c : Byte) : ∀ fuel m, m < fuel → B P s m → m < P.length → TblOk P tbl m →
    (∀ j, B P s j → P[j]? = some c → j ≤ m) →
    ∃ m', fall P tbl c fuel m = some m' ∧ B P s m' ∧ m' < P.length ∧ (m' = 0 ∨ P[m']? = some c) ∧ ∀ j, B P s j → P[j]? = some c → j ≤ m' := by
  intro fuel
  induction fuel with
  | zero => intro m h; omega
  | succ fuel ih =>
    intro m hf hB hl ht hmax
    rw [fall]
    by_cases h0 : m = 0
    · rw [if_pos h0]; subst h0; exact ⟨0, rfl, hB, hl, Or.inl rfl, hmax⟩
    · rw [if_neg h0, List.getElem?_eq_getElem hl, Option.bind_some]
      by_cases hc : P[m] = c
      · rw [if_neg (not_not_intro hc)]
        exact ⟨m, rfl, hB, hl, Or.inr (by rw [List.getElem?_eq_getElem hl, hc]), hmax⟩
      · rw [if_pos hc]
        obtain ⟨j, e1, e2, e3, e4⟩ := ht m (by omega) (Nat.le_refl _)
        rw [e1, Option.bind_some]
        refine ih j (by omega) ⟨by omega, e3.trans hB.2⟩ (by omega) (fun k h1 h2 => ht k h1 (by omega)) ?_
        intro i hi hci
        have him := hmax i hi hci
        rcases Nat.lt_or_ge i m with hlt | hge
        · exact e4 i hlt (B_le hi hB (by omega))
        · have : i = m := by omega
          subst this
          rw [List.getElem?_eq_getElem hl] at hci
          exact absurd (Option.some.inj hci) hc

/-- One character more. -/
theorem advance_correct (P s : List Byte) (tbl : List Nat) (c : Byte) (m : Nat) (hB : B P s m) (hl : m < P.length) (ht : TblOk P tbl m)
    (hmax : ∀ j, B P s j → j ≤ m) :
    ∃ m', advance P tbl c m = some m' ∧ B P (s ++ [c]) m' ∧ ∀ j, B P (s ++ [c]) j → j ≤ m' := by
  obtain ⟨m', e1, e2, e3, e4, e5⟩ := fall_correct P s tbl c (m + 1) m (by omega) hB hl ht (fun j h _ => hmax j h)
  unfold advance
  rw [e1, Option.bind_some, List.getElem?_eq_getElem e3, Option.map_some]
  by_cases hc : P[m'] = c
  · rw [if_pos hc]
    refine ⟨m' + 1, rfl, B_snoc.2 ⟨e2, by rw [List.getElem?_eq_getElem e3, hc]⟩, ?_⟩
    intro j hj
    cases j with
    | zero => omega
    | succ j => have := B_snoc.1 hj; have := e5 j this.1 this.2; omega
  · rw [if_neg hc]
    have h0 : m' = 0 := by
      rcases e4 with h | h
      · exact h
      · rw [List.getElem?_eq_getElem e3] at h; exact absurd (Option.some.inj h) hc
    subst h0
    refine ⟨0, rfl, B_zero _ _, ?_⟩
    intro j hj
    cases j with
    | zero => omega
    | succ j =>
      have h1 := B_snoc.1 hj
      have h2 := e5 j h1.1 h1.2
      have : j = 0 := by omega
      subst this
      rw [List.getElem?_eq_getElem e3] at h1
      exact absurd (Option.some.inj h1.2) hc

/-- The table is computed. -/
theorem prefix_correct (P : List Byte) (hP : P ≠ []) :
    ∃ m tbl, forN (P.length - 1) (prefixBody P) (0, List.replicate P.length 0) = some (m, tbl) ∧ tbl.length = P.length ∧ TblOk P tbl P.length := by
  have hpos : 0 < P.length := List.length_pos_iff.2 hP
  obtain ⟨⟨m, tbl⟩, e1, e2, e3, -⟩ := forN_inv (P := fun i (s : Nat × List Nat) => s.2.length = P.length ∧ TblOk P s.2 (i + 1) ∧
      B P ((P.take (i + 1)).drop 1) s.1 ∧ ∀ j, B P ((P.take (i + 1)).drop 1) j → j ≤ s.1) (P.length - 1) (prefixBody P)
      (0, List.replicate P.length 0)
    ⟨by simp, fun k h1 h2 => by
        have : k = 1 := by omega
        subst this
        refine ⟨0, by simp [hpos], by omega, by simp, fun i hi _ => by omega⟩,
      B_zero _ _, fun j hj => by
        have := B_len hj
        rw [List.length_drop, List.length_take] at this
        simp only
        omega⟩ (by
      rintro i hi ⟨m, tbl⟩ ⟨p1, p2, p3, p4⟩
      simp only at p1 p2 p3 p4
      have hlt : i + 1 < P.length := by omega
      have hm : m ≤ i := by
        have := B_len p3
        rw [List.length_drop, List.length_take] at this
        omega
      obtain ⟨m', q1, q2, q3⟩ := advance_correct P _ tbl P[i + 1] m p3 (by omega) (fun k h1 h2 => p2 k h1 (by omega)) p4
      have hs : (P.take (i + 1)).drop 1 ++ [P[i + 1]] = (P.take (i + 1 + 1)).drop 1 := by
        rw [List.take_succ_eq_append_getElem hlt, List.drop_append_of_le_length (by rw [List.length_take]; omega)]
      rw [hs] at q2 q3
      refine ⟨(m', tbl.set (i + 1) m'), ?_, ?_, ?_, q2, q3⟩
      · rw [prefixBody, List.getElem?_eq_getElem hlt, Option.bind_some, q1, Option.bind_some, setIdx_some _ (by simp only; omega), Option.map_some]
      · simp only [List.length_set]; exact p1
      · intro k h1 h2
        simp only
        rcases Nat.lt_or_ge k (i + 2) with hk | hk
        · obtain ⟨j, g1, g2⟩ := p2 k h1 (by omega)
          exact ⟨j, by rw [List.getElem?_set_ne (by omega)]; exact g1, g2⟩
        · have : k = i + 2 := by omega
          subst this
          have hl := B_len q2
          rw [List.length_drop, List.length_take] at hl
          refine ⟨m', by rw [show i + 2 - 1 = i + 1 by omega, List.getElem?_set_self (by omega)], by omega, q2.2.trans (List.drop_suffix _ _), ?_⟩
          intro i' hi' hsuf
          refine q3 i' ⟨by omega, List.suffix_of_suffix_length_le hsuf (List.drop_suffix _ _) ?_⟩
          rw [List.length_take, List.length_drop, List.length_take]
          omega)
  exact ⟨m, tbl, e1, e2, by rw [show P.length - 1 + 1 = P.length by omega] at e3; exact e3⟩

/-- The state of the search after reading `s`, nothing found. -/
def Inv (P s : List Byte) (m : Nat) : Prop := B P s m ∧ m < P.length ∧ ∀ j, B P s j → j ≤ m

theorem scan_correct (k : Kmp) (ht : TblOk k.pattern k.table k.pattern.length) : ∀ (ts s : List Byte) (index m : Nat), Inv k.pattern s m →
    (∃ n, scanBlock k ts index m = some (.inl (index + n)) ∧ n < ts.length ∧ k.pattern <:+ s ++ (ts.take (n + 1)).map (fold k.icase) ∧
      ∀ n', n' < n → ¬ k.pattern <:+ s ++ (ts.take (n' + 1)).map (fold k.icase)) ∨
    (∃ m', scanBlock k ts index m = some (.inr m') ∧ Inv k.pattern (s ++ ts.map (fold k.icase)) m' ∧
      ∀ n', n' < ts.length → ¬ k.pattern <:+ s ++ (ts.take (n' + 1)).map (fold k.icase)) := by
  intro ts
  induction ts with
  | nil => intro s index m h; exact Or.inr ⟨m, rfl, by simpa using h, fun n' h => by simp at h⟩
  | cons t ts ih =>
    intro s index m ⟨h1, h2, h3⟩
    obtain ⟨m', e1, e2, e3⟩ := advance_correct k.pattern s k.table (fold k.icase t) m h1 h2 (fun k h1 h2 => ht k h1 (by omega)) h3
    rw [scanBlock, e1, Option.bind_some]
    by_cases c : m' = k.pattern.length
    · rw [if_pos c]
      refine Or.inl ⟨0, rfl, by simp, ?_, fun n' h => by omega⟩
      have := e2.2
      rw [c, List.take_length] at this
      simpa using this
    · rw [if_neg c]
      have hno : ¬ k.pattern <:+ s ++ [fold k.icase t] := fun h => by
        have := e3 k.pattern.length ⟨Nat.le_refl _, by rw [List.take_length]; exact h⟩
        have := e2.1
        omega
      have hassoc : ∀ l : List Byte, s ++ (t :: l).map (fold k.icase) = (s ++ [fold k.icase t]) ++ l.map (fold k.icase) := by intro l; simp
      rcases ih (s ++ [fold k.icase t]) (index + 1) m' ⟨e2, by have := e2.1; omega, e3⟩ with ⟨n, g1, g2, g3, g4⟩ | ⟨m'', g1, g2, g3⟩
      · refine Or.inl ⟨n + 1, by rw [g1]; congr 2; omega, by simp only [List.length_cons]; omega, ?_, ?_⟩
        · rw [List.take_succ_cons, hassoc]; exact g3
        · intro n' hn'
          cases n' with
          | zero => simpa using hno
          | succ n' => rw [List.take_succ_cons, hassoc]; exact g4 n' (by omega)
      · refine Or.inr ⟨m'', g1, by rw [hassoc]; exact g2, ?_⟩
        intro n' hn'
        cases n' with
        | zero => simpa using hno
        | succ n' => rw [List.take_succ_cons, hassoc]; exact g3 n' (by simp only [List.length_cons] at hn'; omega)

/-- An occurrence that ends after `e` characters from `o`. -/
theorem suffix_iff_occurs (icase : Bool) (pattern text : List Byte) (o e : Nat) (he : o + e ≤ text.length) :
    pattern.map (fold icase) <:+ ((text.drop o).take e).map (fold icase) ↔
      pattern.length ≤ e ∧ OccursAt icase pattern text (o + e - pattern.length) := by
  have hl : ((text.drop o).take e).length = e := by rw [List.length_take, List.length_drop]; omega
  constructor
  · intro h
    have h1 := h.length_le
    rw [List.length_map, List.length_map, hl] at h1
    refine ⟨h1, by omega, ?_⟩
    rw [List.suffix_iff_eq_drop, List.length_map, List.length_map, hl, ← List.map_drop] at h
    rw [h]
    congr 1
    rw [List.drop_take, List.drop_drop, show o + (e - pattern.length) = o + e - pattern.length by omega,
      show e - (e - pattern.length) = pattern.length by omega]
  · rintro ⟨h1, h2, h3⟩
    rw [List.suffix_iff_eq_drop, List.length_map, List.length_map, hl, ← List.map_drop, ← h3]
    congr 1
    rw [List.drop_take, List.drop_drop, show o + (e - pattern.length) = o + e - pattern.length by omega,
      show e - (e - pattern.length) = pattern.length by omega]

theorem kmp_loop (k : Kmp) (pattern text : List Byte) (next : Nat → List Byte) (o : Nat) (hk : k.pattern = pattern.map (fold k.icase))
    (ht : TblOk k.pattern k.table k.pattern.length) (hn : Delivers next text) (ho : o ≤ text.length) (hsz : text.length < 4294967296) :
    ∀ fuel c m, o ≤ c → c ≤ text.length → text.length - c < fuel → Inv k.pattern (((text.drop o).take (c - o)).map (fold k.icase)) m →
    (∀ q, o ≤ q → q + pattern.length ≤ c → ¬ OccursAt k.icase pattern text q) →
    (∃ p, kmpLoop k next o fuel c m = some (p, p + pattern.length) ∧ FirstFrom k.icase pattern text o p) ∨
    (kmpLoop k next o fuel c m = some (UINT_MAX, o) ∧ ∀ q, o ≤ q → ¬ OccursAt k.icase pattern text q) := by
  intro fuel
  induction fuel with
  | zero => intro c m _ _ h; omega
  | succ fuel ih =>
    intro c m hoc hct hf hI hnone
    rw [kmpLoop]
    simp only
    rcases Nat.lt_or_ge c text.length with hlt | hge
    · obtain ⟨n1, n2⟩ := (hn c).1 hlt
      rw [if_neg n1]
      generalize hb : next c = b at n1 n2 ⊢
      have hbl := n2.length_le
      rw [List.length_drop] at hbl
      have hbe : b = (text.drop c).take b.length := (List.prefix_iff_eq_take.1 n2)
      have hpl : 0 < b.length := List.length_pos_iff.2 n1
      -- the text read so far and a part of the block
      have happ : ∀ n, n ≤ b.length → ((text.drop o).take (c - o)).map (fold k.icase) ++ (b.take n).map (fold k.icase) =
          ((text.drop o).take (c - o + n)).map (fold k.icase) := by
        intro n hn
        rw [← List.map_append]
        congr 1
        rw [hbe, List.take_take, Nat.min_eq_left hn, List.take_add]
        congr 2
        rw [List.drop_drop, show o + (c - o) = c by omega]
      have hnot : ∀ n, n ≤ b.length → ¬ k.pattern <:+ ((text.drop o).take (c - o)).map (fold k.icase) ++ (b.take n).map (fold k.icase) →
          ∀ q, o ≤ q → q + pattern.length = c + n → ¬ OccursAt k.icase pattern text q := by
        intro n hn h q hq e hocc
        apply h
        rw [happ n hn, hk, suffix_iff_occurs _ _ _ _ _ (by omega)]
        refine ⟨by omega, ?_⟩
        rw [show o + (c - o + n) - pattern.length = q by omega]
        exact hocc
      rcases scan_correct k ht b _ 0 m hI with ⟨n, g1, g2, g3, g4⟩ | ⟨m', g1, g2, g3⟩
      · rw [g1, Option.bind_some]
        simp only [Nat.zero_add]
        rw [happ _ (by omega), hk, suffix_iff_occurs _ _ _ _ _ (by omega)] at g3
        obtain ⟨f1, f2⟩ := g3
        have hlen : k.pattern.length = pattern.length := by rw [hk, List.length_map]
        refine Or.inl ⟨o + (c - o + (n + 1)) - pattern.length, ?_, ?_, f2, ?_⟩
        · have e1 : w32 (c + n + 1) = c + n + 1 := Nat.mod_eq_of_lt (by omega)
          rw [e1, hlen]
          have e2 : w32 (c + n + 1 + 4294967296 - pattern.length) = c + n + 1 - pattern.length := by
            unfold w32
            rw [show c + n + 1 + 4294967296 - pattern.length = (c + n + 1 - pattern.length) + 4294967296 by omega, Nat.add_mod_right]
            exact Nat.mod_eq_of_lt (by omega)
          rw [e2]
          congr 2 <;> omega
        · omega
        · intro q hq hocc
          apply Classical.byContradiction
          intro hc
          have hq2 : q + pattern.length < c + (n + 1) := by omega
          rcases Nat.lt_or_ge c (q + pattern.length) with h5 | h5
          · exact hnot (q + pattern.length - c) (by omega) (by
              have := g4 (q + pattern.length - c - 1) (by omega)
              rwa [show q + pattern.length - c - 1 + 1 = q + pattern.length - c by omega] at this) q hq (by omega) hocc
          · exact hnone q hq h5 hocc
      · rw [g1, Option.bind_some]
        simp only
        have e1 : w32 (c + b.length) = c + b.length := Nat.mod_eq_of_lt (by omega)
        rw [e1]
        refine ih (c + b.length) m' (by omega) (by omega) (by omega) ?_ ?_
        · have := happ b.length (Nat.le_refl _)
          rw [List.take_length] at this
          rw [show c + b.length - o = c - o + b.length by omega, ← this]
          exact g2
        · intro q hq hqc hocc
          rcases Nat.lt_or_ge c (q + pattern.length) with h5 | h5
          · exact hnot (q + pattern.length - c) (by omega) (by
              have := g3 (q + pattern.length - c - 1) (by omega)
              rwa [show q + pattern.length - c - 1 + 1 = q + pattern.length - c by omega] at this) q hq (by omega) hocc
          · exact hnone q hq h5 hocc
    · rw [(hn c).2 hge, if_pos rfl]
      refine Or.inr ⟨rfl, fun q hq hocc => ?_⟩
      have := hocc.1
      exact hnone q hq (by omega) hocc

theorem prepare_some (pattern : List Byte) (icase : Bool) (hne : pattern ≠ []) (hsz : pattern.length < 1073741824) :
    ∃ k, kmpPrepare pattern icase = some k ∧ k.icase = icase ∧ k.pattern = pattern.map (fold icase) ∧ TblOk k.pattern k.table k.pattern.length := by
  obtain ⟨m, tbl, e1, -, e3⟩ := prefix_correct (pattern.map (fold icase)) (by simpa using hne)
  refine ⟨⟨icase, pattern.map (fold icase), tbl⟩, ?_, rfl, rfl, e3⟩
  unfold kmpPrepare
  rw [List.length_map] at e1
  simp only
  rw [if_neg (by omega), e1, Option.map_some]

/-- C53: the search from offset `o` over a text delivered in arbitrary blocks returns the first occurrence at or after `o` and leaves the
offset at its end; when there is none it returns `UINT_MAX` and leaves the offset. `o = 0` is the first search; continuing from the offset left
behind gives the following occurrences that do not overlap. -/
theorem kmp_correct (pattern text : List Byte) (icase : Bool) (next : Nat → List Byte) (o fuel : Nat) (hne : pattern ≠ [])
    (hsz : pattern.length < 1073741824) (hn : Delivers next text) (ht : text.length < 4294967296) (ho : o ≤ text.length)
    (hf : text.length < fuel) :
    ∃ k, kmpPrepare pattern icase = some k ∧
      ((∃ p, kmpFind k next o fuel = some (p, p + pattern.length) ∧ p < UINT_MAX ∧ FirstFrom icase pattern text o p) ∨
       (kmpFind k next o fuel = some (UINT_MAX, o) ∧ ∀ q, o ≤ q → ¬ OccursAt icase pattern text q)) := by
  obtain ⟨k, e1, e2, e3, e4⟩ := prepare_some pattern icase hne hsz
  refine ⟨k, e1, ?_⟩
  subst e2
  have hpl : 0 < pattern.length := List.length_pos_iff.2 hne
  have hpl' : 0 < k.pattern.length := by rw [e3, List.length_map]; exact hpl
  rcases kmp_loop k pattern text next o e3 e4 hn ho ht fuel o 0 (Nat.le_refl _) ho (by omega)
    ⟨B_zero _ _, hpl', fun j hj => by have := B_len hj; simpa using this⟩ (fun q h1 h2 => by omega) with ⟨p, g1, g2⟩ | h
  · have := g2.2.1.1
    exact Or.inl ⟨p, g1, by unfold UINT_MAX; omega, g2⟩
  · exact Or.inr h

/-- The linear form delivers the whole rest at once. -/
theorem linear_delivers (text : List Byte) : Delivers (linearNext text) text := by
  intro c
  unfold linearNext
  refine ⟨fun h => ?_, fun h => if_neg (by omega)⟩
  rw [if_pos h]
  refine ⟨fun e => ?_, List.prefix_refl _⟩
  have := congrArg List.length e
  rw [List.length_drop, List.length_nil] at this
  omega

/-- C53 for the linear form. -/
theorem kmp_linear (pattern text : List Byte) (icase : Bool) (hne : pattern ≠ []) (hsz : pattern.length < 1073741824)
    (ht : text.length < 4294967296) :
    ∃ k, kmpPrepare pattern icase = some k ∧
      ((∃ p, kmpFind k (linearNext text) 0 (text.length + 1) = some (p, p + pattern.length) ∧ p < UINT_MAX ∧ FirstFrom icase pattern text 0 p) ∨
       (kmpFind k (linearNext text) 0 (text.length + 1) = some (UINT_MAX, 0) ∧ ∀ q, ¬ OccursAt icase pattern text q)) := by
  obtain ⟨k, e1, e2⟩ := kmp_correct pattern text icase _ 0 (text.length + 1) hne hsz (linear_delivers text) ht (Nat.zero_le _) (by omega)
  refine ⟨k, e1, ?_⟩
  rcases e2 with h | ⟨h1, h2⟩
  · exact Or.inl h
  · exact Or.inr ⟨h1, fun q => h2 q (Nat.zero_le _)⟩

/-- C53 fails for the empty pattern: the first character of the pattern is read although there is none. -/
theorem kmp_empty_violated (text : List Byte) (icase : Bool) (hne : text ≠ []) (fuel : Nat) :
    ∃ k, kmpPrepare [] icase = some k ∧ kmpFind k (linearNext text) 0 (fuel + 1) = none ∧ OccursAt icase [] text 0 := by
  refine ⟨⟨icase, [], []⟩, rfl, ?_, by simp [OccursAt]⟩
  have hl : 0 < text.length := List.length_pos_iff.2 hne
  cases text with
  | nil => exact absurd rfl hne
  | cons t ts => simp [kmpFind, kmpLoop, linearNext, scanBlock, advance, fall]

/-! A non-trivial case: `aabaaa` in `aabaabaaab`, in blocks of three, ignoring case. -/
example : (kmpPrepare [97, 97, 98, 97, 97, 97] true).map (·.table) = some [0, 1, 0, 1, 2, 2] := by decide +kernel
example : ((kmpPrepare [97, 97, 98, 97, 97, 97] true).bind fun k =>
    kmpFind k (fun c => ([97, 97, 66, 97, 97, 98, 97, 65, 97, 98].drop c).take 3) 0 11) = some (3, 9) := by decide +kernel

end Bfdev.Textsearch

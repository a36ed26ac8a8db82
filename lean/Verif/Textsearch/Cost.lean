import Verif.Textsearch.Kmp
/-!
What a Knuth-Morris-Pratt search costs: the functions of the model with a counter of the comparisons of characters and a log of the positions
at which the callback is asked for a block.
-/
namespace Bfdev.Textsearch

/-- kmp.c:59-60 and 83-84, counting the comparisons; the counter before is the last argument. -/
def fallC (pat : List Byte) (tbl : List Nat) (c : Byte) : Nat → Nat → Nat → Option (Nat × Nat)
  | 0, _, _ => none
  | fuel + 1, m, n =>
    if m = 0 then some (0, n)
    else pat[m]?.bind fun x => if x ≠ c then tbl[m - 1]?.bind fun m => fallC pat tbl c fuel m (n + 1) else some (m, n + 1)

/-- kmp.c:59-63 and 83-87, counting the comparisons. -/
def advanceC (pat : List Byte) (tbl : List Nat) (c : Byte) (m n : Nat) : Option (Nat × Nat) :=
  (fallC pat tbl c (m + 1) m n).bind fun s => pat[s.1]?.map fun x => if x = c then (s.1 + 1, s.2 + 1) else (s.1, s.2 + 1)

/-- kmp.c:82-90, counting the comparisons. -/
def prefixBodyC (pat : List Byte) (i : Nat) (s : (Nat × List Nat) × Nat) : Option ((Nat × List Nat) × Nat) :=
  pat[i + 1]?.bind fun c =>
  (advanceC pat s.1.2 c s.1.1 s.2).bind fun a =>
  (setIdx s.1.2 (i + 1) a.1).map fun tbl => ((a.1, tbl), a.2)

/-- `kmp_prepare`, kmp.c:93-116, and the number of comparisons it makes. -/
def kmpPrepareC (pattern : List Byte) (icase : Bool) : Option (Kmp × Nat) :=
  let pat := pattern.map (fold icase)
  if 4 * pattern.length ≥ 4294967296 then none
  else (forN (pattern.length - 1) (prefixBodyC pat) ((0, List.replicate pattern.length 0), 0)).map fun s => (⟨icase, pat, s.1.2⟩, s.2)

/-- kmp.c:58-69, counting the comparisons. -/
def scanBlockC (k : Kmp) : List Byte → Nat → Nat → Nat → Option ((Nat ⊕ Nat) × Nat)
  | [], _, m, n => some (.inr m, n)
  | t :: ts, index, m, n =>
    (advanceC k.pattern k.table (fold k.icase t) m n).bind fun a =>
    if a.1 = k.pattern.length then some (.inl index, a.2) else scanBlockC k ts (index + 1) a.1 a.2

/-- What the search did: the comparisons of characters and the positions at which it asked for a block, the latest first. -/
structure Meter where
  cmps : Nat
  asked : List Nat
deriving DecidableEq

/-- `kmp_find`, kmp.c:53-72, with a meter. -/
def kmpLoopC (k : Kmp) (next : Nat → List Byte) (offset : Nat) : Nat → Nat → Nat → Meter → Option ((Nat × Nat) × Meter)
  | 0, _, _, _ => none
  | fuel + 1, consumed, m, w =>
    let text := next consumed
    if text = [] then some ((UINT_MAX, offset), ⟨w.cmps, consumed :: w.asked⟩)
    else (scanBlockC k text 0 m w.cmps).bind fun r =>
      match r.1 with
      | .inl index =>
        let off := w32 (consumed + index + 1)
        some ((w32 (off + 4294967296 - k.pattern.length), off), ⟨r.2, consumed :: w.asked⟩)
      | .inr m => kmpLoopC k next offset fuel (w32 (consumed + text.length)) m ⟨r.2, consumed :: w.asked⟩

/-- `kmp_find`, kmp.c:39-75, with a meter. -/
def kmpFindC (k : Kmp) (next : Nat → List Byte) (offset fuel : Nat) : Option ((Nat × Nat) × Meter) :=
  kmpLoopC k next offset fuel offset 0 ⟨0, []⟩

/-! ## The meters change nothing -/

theorem fallC_plain (pat : List Byte) (tbl : List Nat) (c : Byte) : ∀ fuel m n, (fallC pat tbl c fuel m n).map (·.1) = fall pat tbl c fuel m := by
  intro fuel
  induction fuel with
  | zero => intro m n; rfl
  | succ fuel ih =>
    intro m n
    rw [fallC, fall]
    split
    · rfl
    · cases pat[m]? with
      | none => rfl
      | some x =>
        simp only [Option.bind_some]
        split
        · cases tbl[m - 1]? with
          | none => rfl
          | some j => exact ih j (n + 1)
        · rfl

theorem advanceC_plain (pat : List Byte) (tbl : List Nat) (c : Byte) (m n : Nat) :
    (advanceC pat tbl c m n).map (·.1) = advance pat tbl c m := by
  rw [advance, ← fallC_plain pat tbl c (m + 1) m n, advanceC]
  cases fallC pat tbl c (m + 1) m n with
  | none => rfl
  | some s =>
    simp only [Option.bind_some, Option.map_some, Option.map_map]
    cases pat[s.1]? with
    | none => rfl
    | some x =>
      simp only [Option.map_some, Function.comp]
      split <;> rfl

theorem scanBlockC_plain (k : Kmp) : ∀ (ts : List Byte) (i m n : Nat), (scanBlockC k ts i m n).map (·.1) = scanBlock k ts i m := by
  intro ts
  induction ts with
  | nil => intro i m n; rfl
  | cons t ts ih =>
    intro i m n
    rw [scanBlock, ← advanceC_plain _ _ _ m n, scanBlockC]
    cases advanceC k.pattern k.table (fold k.icase t) m n with
    | none => rfl
    | some a =>
      simp only [Option.bind_some, Option.map_some]
      split
      · rfl
      · exact ih _ _ _

theorem kmpLoopC_plain (k : Kmp) (next : Nat → List Byte) (o : Nat) : ∀ fuel c m w,
    (kmpLoopC k next o fuel c m w).map (·.1) = kmpLoop k next o fuel c m := by
  intro fuel
  induction fuel with
  | zero => intro c m w; rfl
  | succ fuel ih =>
    intro c m w
    rw [kmpLoop, kmpLoopC]
    simp only
    split
    · rfl
    · rw [← scanBlockC_plain k (next c) 0 m w.cmps]
      cases scanBlockC k (next c) 0 m w.cmps with
      | none => rfl
      | some r =>
        obtain ⟨r, n⟩ := r
        cases r with
        | inl i => rfl
        | inr m' => exact ih _ _ _

/-- The metered search returns what the search returns. -/
theorem find_plain (k : Kmp) (next : Nat → List Byte) (o fuel : Nat) : (kmpFindC k next o fuel).map (·.1) = kmpFind k next o fuel :=
  kmpLoopC_plain k next o fuel o 0 _

theorem prefixBodyC_plain (pat : List Byte) (i : Nat) (s : (Nat × List Nat) × Nat) :
    (prefixBodyC pat i s).map (·.1) = prefixBody pat i s.1 := by
  rw [prefixBody, prefixBodyC]
  cases pat[i + 1]? with
  | none => rfl
  | some c =>
    simp only [Option.bind_some]
    rw [← advanceC_plain pat s.1.2 c s.1.1 s.2]
    cases advanceC pat s.1.2 c s.1.1 s.2 with
    | none => rfl
    | some a =>
      simp only [Option.bind_some, Option.map_some]
      cases setIdx s.1.2 (i + 1) a.1 <;> rfl

/-- The metered preparation makes the same tables. -/
theorem prepare_plain (pattern : List Byte) (icase : Bool) : (kmpPrepareC pattern icase).map (·.1) = kmpPrepare pattern icase := by
  have key : ∀ pat n (s : (Nat × List Nat) × Nat), (forN n (prefixBodyC pat) s).map (·.1) = forN n (prefixBody pat) s.1 := by
    intro pat n s
    induction n with
    | zero => rfl
    | succ n ih =>
      rw [forN, forN, ← ih]
      cases forN n (prefixBodyC pat) s with
      | none => rfl
      | some t => exact prefixBodyC_plain pat n t
  unfold kmpPrepareC kmpPrepare
  simp only
  split
  · rfl
  · rw [← key _ _ ((0, List.replicate pattern.length 0), 0)]
    cases forN (pattern.length - 1) (prefixBodyC (pattern.map (fold icase))) ((0, List.replicate pattern.length 0), 0) <;> rfl

/-! ## The price of a character -/

/-- Every fall goes down. -/
def Down (tbl : List Nat) (n : Nat) : Prop := ∀ k, 1 ≤ k → k ≤ n → ∀ j, tbl[k - 1]? = some j → j < k

theorem down_of_ok {P : List Byte} {tbl : List Nat} {n : Nat} (h : TblOk P tbl n) : Down tbl n := by
  intro k h1 h2 j hj
  obtain ⟨j', e1, e2, -⟩ := h k h1 h2
  rw [e1] at hj
  cases hj
  exact e2

theorem fallC_cost (pat : List Byte) (tbl : List Nat) (c : Byte) : ∀ fuel m n m' n', Down tbl m → fallC pat tbl c fuel m n = some (m', n') →
    m' ≤ m ∧ n' + m' ≤ n + m + 1 := by
  intro fuel
  induction fuel with
  | zero => intro m n m' n' _ h; cases h
  | succ fuel ih =>
    intro m n m' n' hd h
    rw [fallC] at h
    split at h
    · cases h; omega
    · rename_i hm
      cases hx : pat[m]? with
      | none => rw [hx] at h; cases h
      | some x =>
        rw [hx, Option.bind_some] at h
        split at h
        · cases hj : tbl[m - 1]? with
          | none => rw [hj] at h; cases h
          | some j =>
            rw [hj, Option.bind_some] at h
            have hjm := hd m (by omega) (Nat.le_refl _) j hj
            have r := ih j (n + 1) m' n' (fun k h1 h2 => hd k h1 (by omega)) h
            omega
        · cases h; omega

theorem advanceC_cost {pat : List Byte} {tbl : List Nat} {c : Byte} {m n m' n' : Nat} (hd : Down tbl m)
    (h : advanceC pat tbl c m n = some (m', n')) : n' + m' ≤ n + m + 3 := by
  rw [advanceC] at h
  cases hf : fallC pat tbl c (m + 1) m n with
  | none => rw [hf] at h; cases h
  | some s =>
    obtain ⟨a, b⟩ := s
    rw [hf, Option.bind_some] at h
    have r := fallC_cost pat tbl c (m + 1) m n a b hd hf
    simp only at h
    cases hx : pat[a]? with
    | none => rw [hx] at h; cases h
    | some x =>
      rw [hx, Option.map_some] at h
      split at h <;> (cases h; omega)

theorem scanBlockC_cost (k : Kmp) (ht : TblOk k.pattern k.table k.pattern.length) : ∀ (ts s : List Byte) (i m n : Nat), Inv k.pattern s m →
    (∃ d n' , scanBlockC k ts i m n = some (.inl (i + d), n') ∧ d < ts.length ∧ n' ≤ n + m + 3 * (d + 1)) ∨
    (∃ m' n', scanBlockC k ts i m n = some (.inr m', n') ∧ Inv k.pattern (s ++ ts.map (fold k.icase)) m' ∧ n' + m' ≤ n + m + 3 * ts.length) := by
  intro ts
  induction ts with
  | nil => intro s i m n h; exact Or.inr ⟨m, n, rfl, by simpa using h, by simp⟩
  | cons t ts ih =>
    intro s i m n hI
    obtain ⟨h1, h2, h3⟩ := hI
    obtain ⟨m', e1, e2, e3⟩ := advance_correct k.pattern s k.table (fold k.icase t) m h1 h2 (fun k h1 h2 => ht k h1 (by omega)) h3
    rw [← advanceC_plain _ _ _ m n] at e1
    rw [scanBlockC]
    cases ha : advanceC k.pattern k.table (fold k.icase t) m n with
    | none => rw [ha] at e1; cases e1
    | some a =>
      obtain ⟨m1, n1⟩ := a
      rw [ha] at e1
      cases e1
      have hc := advanceC_cost (fun j g1 g2 => down_of_ok ht j g1 (by omega)) ha
      simp only [Option.bind_some]
      by_cases c : m1 = k.pattern.length
      · rw [if_pos c]
        exact Or.inl ⟨0, n1, rfl, by simp, by omega⟩
      · rw [if_neg c]
        have hassoc : s ++ (t :: ts).map (fold k.icase) = (s ++ [fold k.icase t]) ++ ts.map (fold k.icase) := by simp
        rcases ih (s ++ [fold k.icase t]) (i + 1) m1 n1 ⟨e2, by have : m1 ≤ k.pattern.length := e2.1; omega, e3⟩ with ⟨d, n', g1, g2, g3⟩ | ⟨m'', n', g1, g2, g3⟩
        · refine Or.inl ⟨d + 1, n', by rw [g1]; congr 3; omega, by simp only [List.length_cons]; omega, by omega⟩
        · refine Or.inr ⟨m'', n', g1, by rw [hassoc]; exact g2, by simp only [List.length_cons]; omega⟩

/-- What is true of a meter while the search stands at position `c`. -/
def Fair (o c : Nat) (w : Meter) : Prop := w.asked.Pairwise (· > ·) ∧ ∀ p ∈ w.asked, o ≤ p ∧ p < c

theorem fair_ask {o c : Nat} {w : Meter} (n : Nat) (hoc : o ≤ c) (h : Fair o c w) : Fair o (c + 1) ⟨n, c :: w.asked⟩ := by
  refine ⟨List.pairwise_cons.2 ⟨fun p hp => (h.2 p hp).2, h.1⟩, fun p hp => ?_⟩
  rcases List.mem_cons.1 hp with rfl | hp
  · omega
  · have := h.2 p hp; omega

theorem fair_mono {o c c' : Nat} {w : Meter} (hc : c ≤ c') (h : Fair o c w) : Fair o c' w :=
  ⟨h.1, fun p hp => ⟨(h.2 p hp).1, Nat.lt_of_lt_of_le (h.2 p hp).2 hc⟩⟩

theorem kmpLoopC_cost (k : Kmp) (text : List Byte) (next : Nat → List Byte) (o : Nat)
    (ht : TblOk k.pattern k.table k.pattern.length) (hn : Delivers next text) (hsz : text.length < 4294967296) :
    ∀ fuel c m w s, o ≤ c → c ≤ text.length → text.length - c < fuel → Inv k.pattern s m → w.cmps + m ≤ 3 * (c - o) → Fair o c w →
    ∃ r w', kmpLoopC k next o fuel c m w = some (r, w') ∧
      (r.1 ≠ UINT_MAX → r.2 ≤ text.length ∧ w'.cmps ≤ 3 * (r.2 - o) ∧ ∀ p ∈ w'.asked, p < r.2) ∧
      w'.cmps ≤ 3 * (text.length - o) ∧ Fair o (text.length + 1) w' := by
  intro fuel
  induction fuel with
  | zero => intro c m w s _ _ h; omega
  | succ fuel ih =>
    intro c m w s hoc hct hf hI hw hfair
    rw [kmpLoopC]
    simp only
    rcases Nat.lt_or_ge c text.length with hlt | hge
    · obtain ⟨n1, n2⟩ := (hn c).1 hlt
      rw [if_neg n1]
      generalize next c = b at n1 n2 ⊢
      have hbl := n2.length_le
      rw [List.length_drop] at hbl
      have hpl : 0 < b.length := List.length_pos_iff.2 n1
      rcases scanBlockC_cost k ht b s 0 m w.cmps hI with ⟨d, n', g1, g2, g3⟩ | ⟨m', n', g1, g2, g3⟩
      · rw [g1, Option.bind_some]
        have e1 : w32 (c + (0 + d) + 1) = c + d + 1 := by unfold w32; rw [Nat.zero_add]; exact Nat.mod_eq_of_lt (by omega)
        have hfa := fair_ask n' hoc hfair
        refine ⟨_, _, rfl, fun _ => ?_, ?_, fair_mono (by omega) hfa⟩
        · simp only [e1]
          refine ⟨by omega, by omega, fun p hp => ?_⟩
          have := (hfa.2 p hp).2
          omega
        · simp only; omega
      · rw [g1, Option.bind_some]
        simp only
        have e1 : w32 (c + b.length) = c + b.length := Nat.mod_eq_of_lt (by omega)
        rw [e1]
        exact ih (c + b.length) m' ⟨n', c :: w.asked⟩ _ (by omega) (by omega) (by omega) g2 (by simp only; omega)
          (fair_mono (by omega) (fair_ask n' hoc hfair))
    · rw [(hn c).2 hge, if_pos rfl]
      refine ⟨_, _, rfl, fun h => absurd rfl h, ?_, fair_mono (by omega) (fair_ask _ hoc hfair)⟩
      simp only
      omega

/-- C119: however the text is cut into blocks, a search from `o` compares characters at most three times for every character up to the end of
the occurrence it reports, or up to the end of the text when there is none; it never asks for the same position twice, asks in ascending order,
and asks for nothing behind the occurrence. -/
theorem search_linear (pattern text : List Byte) (icase : Bool) (next : Nat → List Byte) (o fuel : Nat) (hne : pattern ≠ [])
    (hsz : pattern.length < 1073741824) (hn : Delivers next text) (ht : text.length < 4294967296) (ho : o ≤ text.length)
    (hf : text.length < fuel) :
    ∃ k r w, kmpPrepare pattern icase = some k ∧ kmpFind k next o fuel = some r ∧ kmpFindC k next o fuel = some (r, w) ∧
      w.cmps ≤ 3 * (text.length - o) ∧
      w.asked.Pairwise (· > ·) ∧ (∀ p ∈ w.asked, o ≤ p ∧ p ≤ text.length) ∧
      (r.1 ≠ UINT_MAX → r.2 ≤ text.length ∧ w.cmps ≤ 3 * (r.2 - o) ∧ ∀ p ∈ w.asked, p < r.2) := by
  obtain ⟨k, e1, e2, e3, e4⟩ := prepare_some pattern icase hne hsz
  have hpl : 0 < k.pattern.length := by rw [e3, List.length_map]; exact List.length_pos_iff.2 hne
  obtain ⟨r, w, g1, g2, g3, g4⟩ := kmpLoopC_cost k text next o e4 hn ht fuel o 0 ⟨0, []⟩ [] (Nat.le_refl _) ho (by omega)
    ⟨B_zero _ _, hpl, fun j hj => by have := B_len hj; simpa using this⟩ (by simp) ⟨List.Pairwise.nil, fun p hp => by cases hp⟩
  refine ⟨k, r, w, e1, ?_, g1, g3, g4.1, fun p hp => ⟨(g4.2 p hp).1, by have := (g4.2 p hp).2; omega⟩, g2⟩
  have := find_plain k next o fuel
  rw [show kmpFindC k next o fuel = some (r, w) from g1] at this
  exact this.symm

/-- C119: preparing a pattern compares characters at most three times for every character of the pattern. -/
theorem prepare_linear (pattern : List Byte) (icase : Bool) (hne : pattern ≠ []) (hsz : pattern.length < 1073741824) :
    ∃ k n, kmpPrepareC pattern icase = some (k, n) ∧ kmpPrepare pattern icase = some k ∧ n ≤ 3 * (pattern.length - 1) := by
  obtain ⟨k, e1, -, -, -⟩ := prepare_some pattern icase hne hsz
  have hp := prepare_plain pattern icase
  rw [e1] at hp
  have down : ∀ pat n m tbl c, forN n (prefixBodyC pat) ((0, List.replicate pattern.length 0), 0) = some ((m, tbl), c) →
      m ≤ n ∧ c + m ≤ 3 * n ∧ Down tbl tbl.length := by
    intro pat n
    induction n with
    | zero =>
      intro m tbl c h
      cases h
      refine ⟨Nat.le_refl _, by omega, fun k h1 h2 j hj => ?_⟩
      have hj' := List.mem_of_getElem? hj
      rw [List.mem_replicate] at hj'
      omega
    | succ n ih =>
      intro m tbl c h
      rw [forN] at h
      cases hs : forN n (prefixBodyC pat) ((0, List.replicate pattern.length 0), 0) with
      | none => rw [hs] at h; cases h
      | some s =>
        obtain ⟨⟨m0, tbl0⟩, c0⟩ := s
        obtain ⟨i1, i2, i3⟩ := ih m0 tbl0 c0 hs
        rw [hs, Option.bind_some, prefixBodyC] at h
        cases hx : pat[n + 1]? with
        | none => rw [hx] at h; cases h
        | some x =>
          rw [hx, Option.bind_some] at h
          simp only at h
          cases ha : advanceC pat tbl0 x m0 c0 with
          | none => rw [ha] at h; cases h
          | some a =>
            obtain ⟨m1, c1⟩ := a
            rw [ha, Option.bind_some] at h
            simp only [setIdx] at h
            split at h
            · rename_i hlt
              cases h
              have hd : Down tbl0 m0 := fun k h1 h2 => i3 k h1 (by omega)
              have r := advanceC_cost hd ha
              have hm : m ≤ n + 1 := by
                rw [advanceC] at ha
                cases hf : fallC pat tbl0 x (m0 + 1) m0 c0 with
                | none => rw [hf] at ha; cases ha
                | some q =>
                  obtain ⟨q1, q2⟩ := q
                  have := fallC_cost pat tbl0 x (m0 + 1) m0 c0 q1 q2 hd hf
                  rw [hf, Option.bind_some] at ha
                  simp only at ha
                  cases hy : pat[q1]? with
                  | none => rw [hy] at ha; cases ha
                  | some y =>
                    rw [hy, Option.map_some] at ha
                    split at ha <;> (cases ha; omega)
              refine ⟨hm, by omega, fun k h1 h2 j hj => ?_⟩
              rw [List.length_set] at h2
              rw [List.getElem?_set] at hj
              split at hj
              · cases hj; omega
              · exact i3 k h1 h2 j hj
            · cases h
  cases hc : kmpPrepareC pattern icase with
  | none => rw [hc] at hp; cases hp
  | some s =>
    obtain ⟨k', n⟩ := s
    rw [hc, Option.map_some] at hp
    have hk : k' = k := Option.some.inj hp
    refine ⟨k', n, rfl, by rw [hk]; exact e1, ?_⟩
    unfold kmpPrepareC at hc
    simp only at hc
    rw [if_neg (by omega)] at hc
    cases hs : forN (pattern.length - 1) (prefixBodyC (pattern.map (fold icase))) ((0, List.replicate pattern.length 0), 0) with
    | none => rw [hs] at hc; cases hc
    | some s =>
      obtain ⟨⟨m, tbl⟩, c⟩ := s
      rw [hs] at hc
      cases hc
      have := down _ _ _ _ _ hs
      omega

/-- A text of two blocks: the search asks at 0 and 3 and compares 14 times for 6 characters. -/
example : ((kmpPrepare [97, 97, 98] false).bind fun k =>
    kmpFindC k (fun c => if c < 3 then (([97, 97, 97, 97, 97, 98] : List Byte).drop c).take (3 - c) else
      ([97, 97, 97, 97, 97, 98] : List Byte).drop c) 0 7) = some ((3, 6), ⟨14, [3, 0]⟩) := by decide +kernel

example : (kmpPrepareC [97, 97, 98, 97, 97, 97, 98] false).map (·.2) = some 11 := by decide +kernel

end Bfdev.Textsearch

import Verif.Argv.Spec
/-!
C55: splitting an argument string.
-/
namespace Bfdev.Argv

theorem mem_separators (c : Byte) : c ∈ separators ↔ Blank c := by simp [separators, Blank]

theorem blank_ne_zero {c : Byte} (h : Blank c) : c ≠ 0 := by
  rcases h with h | h | h | h <;> subst h <;> decide

theorem zero_not_blank : ¬ Blank 0 := fun h => blank_ne_zero h rfl

theorem strspn_append {b x : List Byte} (hb : ∀ c ∈ b, Blank c) (hx : ∀ c, x.head? = some c → ¬ Blank c) : strspn (b ++ x) = b.length := by
  induction b with
  | nil =>
    cases x with
    | nil => rfl
    | cons c x => simp only [List.nil_append, strspn, mem_separators, hx c rfl, if_false, List.length_nil]
  | cons c b ih =>
    simp only [List.cons_append, strspn, mem_separators, hb c List.mem_cons_self, if_true, List.length_cons]
    rw [ih fun c h => hb c (List.mem_cons_of_mem _ h)]

theorem strcspn_append {w x : List Byte} (hw : ∀ c ∈ w, ¬ Blank c) (hw0 : (0 : Byte) ∉ w) (hx : ∀ c, x.head? = some c → c = 0 ∨ Blank c) :
    strcspn (w ++ x) = w.length := by
  induction w with
  | nil =>
    cases x with
    | nil => rfl
    | cons c x => simp only [List.nil_append, strcspn, mem_separators, hx c rfl, if_true, List.length_nil]
  | cons c w ih =>
    have h1 : ¬ (c = 0 ∨ Blank c) := by
      rintro (h | h)
      · subst h; exact hw0 List.mem_cons_self
      · exact hw c List.mem_cons_self h
    simp only [List.cons_append, strcspn, mem_separators, h1, if_false, List.length_cons]
    rw [ih (fun c h => hw c (List.mem_cons_of_mem _ h)) (fun h => hw0 (List.mem_cons_of_mem _ h))]

theorem words_blank {s ws} (h : Words s ws) (hs : ∀ c ∈ s, Blank c) : ws = [] := by
  cases h with
  | none => rfl
  | @word blanks w rest ws h1 h2 h3 h4 =>
    exfalso
    cases w with
    | nil => exact h2.1 rfl
    | cons c w => exact h2.2 c List.mem_cons_self (hs c (by simp))

theorem words_tail {c s ws} (h : Words (c :: s) ws) (hc : Blank c) : Words s ws := by
  generalize e : c :: s = t at h
  cases h with
  | none h => exact .none fun x hx => h x (by rw [← e]; exact List.mem_cons_of_mem _ hx)
  | @word blanks w rest ws h1 h2 h3 h4 =>
    cases blanks with
    | nil =>
      exfalso
      cases w with
      | nil => exact h2.1 rfl
      | cons x w =>
        simp only [List.nil_append, List.cons_append, List.cons.injEq] at e
        exact h2.2 x List.mem_cons_self (e.1 ▸ hc)
    | cons x blanks =>
      simp only [List.cons_append, List.cons.injEq] at e
      rw [e.2]
      exact .word (fun y hy => h1 y (List.mem_cons_of_mem _ hy)) h2 h3 h4

theorem words_cons_blank {c s ws} (h : Words s ws) (hc : Blank c) : Words (c :: s) ws := by
  cases h with
  | none h =>
    refine .none fun x hx => ?_
    rcases List.mem_cons.1 hx with e | e
    · rw [e]; exact hc
    · exact h x e
  | @word blanks w rest ws h1 h2 h3 h4 =>
    refine Words.word (blanks := c :: blanks) (fun x hx => ?_) h2 h3 h4
    rcases List.mem_cons.1 hx with e | e
    · rw [e]; exact hc
    · exact h1 x e

theorem words_cons_char {c s ws} (h : Words s ws) (hc : ¬ Blank c) : ∃ ws', Words (c :: s) ws' := by
  cases h with
  | none h =>
    refine ⟨_, Words.word (blanks := []) (w := [c]) (rest := s) (by simp) ⟨by simp, by simpa using hc⟩ (fun x hx => ?_) (.none h)⟩
    cases s with
    | nil => exact nomatch hx
    | cons y s => cases hx; exact h _ List.mem_cons_self
  | @word blanks w rest ws h1 h2 h3 h4 =>
    cases blanks with
    | nil =>
      refine ⟨_, Words.word (blanks := []) (w := c :: w) (rest := rest) (by simp) ⟨by simp, fun x hx => ?_⟩ h3 h4⟩
      rcases List.mem_cons.1 hx with e | e
      · rw [e]; exact hc
      · exact h2.2 x e
    | cons b blanks =>
      refine ⟨_, Words.word (blanks := []) (w := [c]) (rest := b :: blanks ++ w ++ rest) (by simp) ⟨by simp, by simpa using hc⟩ (fun x hx => ?_)
        (.word h1 h2 h3 h4)⟩
      cases hx
      exact h1 _ List.mem_cons_self

/-- Every string has its words. -/
theorem words_exist (s : List Byte) : ∃ ws, Words s ws := by
  induction s with
  | nil => exact ⟨[], .none (by simp)⟩
  | cons c s ih =>
    obtain ⟨ws, h⟩ := ih
    by_cases hc : Blank c
    · exact ⟨ws, words_cons_blank h hc⟩
    · exact words_cons_char h hc

theorem words_length {s ws} (h : Words s ws) : ws.length ≤ s.length := by
  induction h with
  | none => simp
  | @word blanks w rest ws h1 h2 h3 h4 ih =>
    have : 0 < w.length := List.length_pos_iff.2 h2.1
    simp only [List.length_append, List.length_cons]
    omega

theorem span_unique {α : Type} (P : α → Prop) {x y x' y' : List α} (h : x ++ y = x' ++ y') (hx : ∀ c ∈ x, P c) (hx' : ∀ c ∈ x', P c)
    (hy : ∀ c, y.head? = some c → ¬ P c) (hy' : ∀ c, y'.head? = some c → ¬ P c) : x = x' ∧ y = y' := by
  induction x generalizing x' with
  | nil =>
    cases x' with
    | nil => exact ⟨rfl, h⟩
    | cons c x' => exact absurd (hx' c List.mem_cons_self) (hy c (by rw [List.nil_append] at h; rw [h]; rfl))
  | cons c x ih =>
    cases x' with
    | nil => exact absurd (hx c List.mem_cons_self) (hy' c (by rw [List.nil_append] at h; rw [← h]; rfl))
    | cons c' x' =>
      simp only [List.cons_append, List.cons.injEq] at h
      obtain ⟨e1, e2⟩ := ih h.2 (fun c h => hx c (List.mem_cons_of_mem _ h)) (fun c h => hx' c (List.mem_cons_of_mem _ h))
      exact ⟨by rw [h.1, e1], e2⟩

/-- The words of a string are determined by it. -/
theorem words_unique {s ws ws'} (h : Words s ws) (h' : Words s ws') : ws = ws' := by
  induction h generalizing ws' with
  | none h => exact (words_blank h' h).symm
  | @word blanks w rest ws h1 h2 h3 h4 ih =>
    generalize e : blanks ++ w ++ rest = t at h'
    cases h' with
    | none g =>
      exfalso
      cases w with
      | nil => exact h2.1 rfl
      | cons c w => exact h2.2 c List.mem_cons_self (g c (by rw [← e]; simp))
    | @word blanks' w' rest' ws' g1 g2 g3 g4 =>
      rw [List.append_assoc, List.append_assoc] at e
      have hd : ∀ {w rest : List Byte}, (w ≠ [] ∧ ∀ c ∈ w, ¬ Blank c) → ∀ c, (w ++ rest).head? = some c → ¬ Blank c := by
        intro w rest h c hc
        cases w with
        | nil => exact absurd rfl h.1
        | cons x w => cases hc; exact h.2 _ List.mem_cons_self
      obtain ⟨e1, e2⟩ := span_unique Blank e h1 g1 (hd h2) (hd g2)
      obtain ⟨e3, e4⟩ := span_unique (fun c => ¬ Blank c) e2 h2.2 g2.2 (fun c hc => not_not_intro (h3 c hc)) (fun c hc => not_not_intro (g3 c hc))
      subst e3 e4
      rw [ih g4]

theorem countLoop_words {s ws} (h : Words s ws) (h0 : (0 : Byte) ∉ s) : ∀ fuel n, ws.length < fuel → n + ws.length < 4294967296 →
    countLoop fuel (s ++ [0]) n = some (n + ws.length) := by
  induction h with
  | @none s h =>
    intro fuel n hf hn
    obtain ⟨fuel, rfl⟩ := Nat.exists_eq_succ_of_ne_zero (show fuel ≠ 0 by omega)
    rw [countLoop, strspn_append h (by intro c hc; cases hc; exact zero_not_blank), List.getElem?_append_right (Nat.le_refl _), Nat.sub_self]
    simp
  | @word blanks w rest ws h1 h2 h3 h4 ih =>
    intro fuel n hf hn
    have hw0 : (0 : Byte) ∉ w := fun h => h0 (List.mem_append_left _ (List.mem_append_right _ h))
    have hr0 : (0 : Byte) ∉ rest := fun h => h0 (List.mem_append_right _ h)
    obtain ⟨fuel, rfl⟩ := Nat.exists_eq_succ_of_ne_zero (show fuel ≠ 0 by omega)
    simp only [List.length_cons] at hf hn ⊢
    have hspan : strspn (blanks ++ (w ++ (rest ++ [0]))) = blanks.length := by
      refine strspn_append h1 fun c hc => ?_
      cases w with
      | nil => exact absurd rfl h2.1
      | cons x w => cases hc; exact h2.2 _ List.mem_cons_self
    have hcspan : strcspn (w ++ (rest ++ [0])) = w.length := by
      refine strcspn_append h2.2 hw0 fun c hc => ?_
      cases rest with
      | nil => cases hc; exact Or.inl rfl
      | cons x r => cases hc; exact Or.inr (h3 _ rfl)
    have hassoc : blanks ++ w ++ rest ++ [0] = blanks ++ (w ++ (rest ++ [0])) := by simp
    rw [hassoc, countLoop, hspan, List.drop_left]
    simp only [hcspan, List.drop_left]
    rw [List.getElem?_append_right (Nat.le_refl _), Nat.sub_self,
      List.getElem?_append_right (Nat.le_refl _), Nat.sub_self]
    obtain ⟨x, w', hw⟩ : ∃ x w', w = x :: w' := by
      cases w with
      | nil => exact absurd rfl h2.1
      | cons x w' => exact ⟨x, w', rfl⟩
    have hx0 : x ≠ 0 := fun e => hw0 (by rw [hw, e]; exact List.mem_cons_self)
    have hm : (n + 1) % 4294967296 = n + 1 := Nat.mod_eq_of_lt (by omega)
    subst hw
    simp only [List.cons_append, List.getElem?_cons_zero, hx0, if_false, hm]
    cases rest with
    | nil =>
      have : ws = [] := words_blank h4 (by simp)
      subst this
      simp
    | cons y r =>
      have hy0 : y ≠ 0 := fun e => hr0 (by rw [e]; exact List.mem_cons_self)
      simp only [List.cons_append, List.getElem?_cons_zero, hy0, if_false]
      have := ih hr0 fuel (n + 1) (by omega) (by omega)
      rw [List.cons_append] at this
      rw [this]
      congr 1
      omega

/-- C55: the count helper returns the number of words. -/
theorem count_correct (s : List Byte) (h0 : (0 : Byte) ∉ s) (hlen : s.length < 4294967296) (ws) (h : Words s ws) : count s = some ws.length := by
  have := words_length h
  rw [count, countLoop_words h h0 _ 0 (by omega) (by omega), Nat.zero_add]

theorem forN_front {σ : Type} (g : σ → Option σ) : ∀ n s, forN (n + 1) (fun _ => g) s = (g s).bind (forN n fun _ => g) := by
  intro n
  induction n with
  | zero => intro s; cases h : g s <;> simp [forN, h]
  | succ n ih =>
    intro s
    rw [forN, ih]
    cases h : g s with
    | none => rfl
    | some t => simp only [Option.bind_some]; rw [← forN]

theorem split_words : ∀ k s (ws : List (List Byte)), s.length < k → Words s ws → (0 : Byte) ∉ s → ∀ pre argv,
    ∃ mem pos offs, forN ws.length splitBody ⟨pre ++ s ++ [0], pre.length, argv⟩ = some ⟨mem, pos, argv ++ offs⟩ ∧
      mem.length = pre.length + s.length + 1 ∧ (∃ post, mem = pre ++ post) ∧ offs.length = ws.length ∧
      ∀ (i : Nat) w, ws[i]? = some w → ∃ p, offs[i]? = some p ∧ CString mem p w := by
  intro k
  induction k with
  | zero => intro s ws h; omega
  | succ k ih =>
    intro s ws hk h h0 pre argv
    cases h with
    | none h =>
      exact ⟨_, pre.length, [], by rw [List.append_nil]; rfl, by simp [Nat.add_assoc], ⟨s ++ [0], by simp⟩, rfl, fun i w h => by simp at h⟩
    | @word blanks w rest ws h1 h2 h3 h4 =>
      have hw0 : (0 : Byte) ∉ w := fun h => h0 (List.mem_append_left _ (List.mem_append_right _ h))
      have hr0 : (0 : Byte) ∉ rest := fun h => h0 (List.mem_append_right _ h)
      have hwl : 0 < w.length := List.length_pos_iff.2 h2.1
      have hspan : strspn (blanks ++ (w ++ (rest ++ [0]))) = blanks.length := by
        refine strspn_append h1 fun c hc => ?_
        cases w with
        | nil => exact absurd rfl h2.1
        | cons x w => cases hc; exact h2.2 _ List.mem_cons_self
      have hcspan : strcspn (w ++ (rest ++ [0])) = w.length := by
        refine strcspn_append h2.2 hw0 fun c hc => ?_
        cases rest with
        | nil => cases hc; exact Or.inl rfl
        | cons x r => cases hc; exact Or.inr (h3 _ rfl)
      have hassoc : pre ++ (blanks ++ w ++ rest) ++ [0] = pre ++ (blanks ++ (w ++ (rest ++ [0]))) := by simp
      have hassoc2 : pre ++ (blanks ++ (w ++ (rest ++ [0]))) = (pre ++ blanks) ++ (w ++ (rest ++ [0])) := by simp
      have hbody : splitBody 0 ⟨pre ++ (blanks ++ w ++ rest) ++ [0], pre.length, argv⟩ =
          some ⟨(pre ++ blanks ++ w ++ [0]) ++ (rest ++ [0]).tail, (pre ++ blanks ++ w ++ [0]).length, argv ++ [pre.length + blanks.length]⟩ := by
        have hdrop : (pre ++ (blanks ++ (w ++ (rest ++ [0])))).drop (pre.length + blanks.length) = w ++ (rest ++ [0]) := by
          rw [hassoc2, ← List.length_append, List.drop_left]
        rw [splitBody]
        simp only [hassoc, List.drop_left, hspan, hdrop, hcspan]
        rw [setIdx_some _ (by simp; omega), Option.map_some]
        have hset : (pre ++ (blanks ++ (w ++ (rest ++ [0])))).set (pre.length + blanks.length + w.length) 0 =
            (pre ++ blanks ++ w ++ [0]) ++ (rest ++ [0]).tail := by
          have : pre ++ (blanks ++ (w ++ (rest ++ [0]))) = (pre ++ blanks ++ w) ++ (rest ++ [0]) := by simp
          rw [this, show pre.length + blanks.length + w.length = (pre ++ blanks ++ w).length by simp [Nat.add_assoc], List.set_append_right _ _ (Nat.le_refl _),
            Nat.sub_self]
          cases rest with
          | nil => simp
          | cons x r => simp
        rw [hset]
        simp [Nat.add_assoc]
      have hfront : forN (w :: ws).length splitBody ⟨pre ++ (blanks ++ w ++ rest) ++ [0], pre.length, argv⟩ =
          forN ws.length splitBody ⟨(pre ++ blanks ++ w ++ [0]) ++ (rest ++ [0]).tail, (pre ++ blanks ++ w ++ [0]).length,
            argv ++ [pre.length + blanks.length]⟩ := by
        rw [List.length_cons]
        refine Eq.trans (forN_front (splitBody 0) _ _) ?_
        rw [hbody]
        rfl
      rw [hfront]
      have hhead : ∀ mem, (∃ post, mem = (pre ++ blanks ++ w ++ [0]) ++ post) → CString mem (pre.length + blanks.length) w := by
        rintro mem ⟨post, rfl⟩
        exact ⟨hw0, pre ++ blanks, post, by simp, by simp⟩
      cases rest with
      | nil =>
        have : ws = [] := words_blank h4 (by simp)
        subst this
        refine ⟨_, _, [pre.length + blanks.length], rfl, by simp [Nat.add_assoc], ⟨blanks ++ w ++ [0], by simp⟩, rfl, ?_⟩
        intro i v hv
        cases i with
        | zero => cases hv; exact ⟨_, rfl, hhead _ ⟨_, rfl⟩⟩
        | succ i => simp at hv
      | cons x r =>
        obtain ⟨mem, pos, offs, e1, e2, ⟨post, e3⟩, e4, e5⟩ := ih r ws (by simp only [List.length_append, List.length_cons] at hk; omega)
          (words_tail h4 (h3 x rfl)) (fun h => hr0 (List.mem_cons_of_mem _ h)) (pre ++ blanks ++ w ++ [0]) (argv ++ [pre.length + blanks.length])
        refine ⟨mem, pos, (pre.length + blanks.length) :: offs, ?_, ?_, ⟨blanks ++ w ++ [0] ++ post, by rw [e3]; simp⟩, by rw [List.length_cons, e4]; rfl, ?_⟩
        · rw [List.append_assoc] at e1
          simp only [List.cons_append, List.tail_cons]
          rw [e1]
          simp
        · rw [e2]; simp only [List.length_append, List.length_cons, List.length_nil]; omega
        · intro i v hv
          cases i with
          | zero => cases hv; exact ⟨_, rfl, hhead _ ⟨post, e3⟩⟩
          | succ i => exact e5 i v (by simpa using hv)

/-- C55, as far as it holds (see `split_violated`): splitting yields exactly the maximal runs of non-blank characters in order, each as a C string inside the copied block, and the
count agrees. -/
theorem split_partial (s : List Byte) (h0 : (0 : Byte) ∉ s) (hlen : s.length < 4294967296) (ws : List (List Byte)) (h : Words s ws) (hn : ws.length < 536870911) :
    ∃ mem argv, split s = some (mem, argv, ws.length) ∧ mem.length = s.length + 1 ∧ argv.length = ws.length ∧
      ∀ (i : Nat) w, ws[i]? = some w → ∃ p, argv[i]? = some p ∧ CString mem p w := by
  have hl := words_length h
  obtain ⟨mem, pos, offs, e1, e2, -, e4, e5⟩ := split_words _ s ws (Nat.lt_succ_self _) h h0 [] []
  simp only [List.nil_append, List.length_nil, Nat.zero_add] at e1 e2
  refine ⟨mem, offs, ?_, e2, e4, e5⟩
  rw [split, count_correct s h0 (by omega) ws h, Option.bind_some, if_neg (by omega), e1, Option.map_some]

/-- C55 fails from 2^29 - 1 words on the 32-bit size of the pointer block wraps and the pointers are stored outside it. -/
theorem split_violated (s : List Byte) (h0 : (0 : Byte) ∉ s) (hlen : s.length < 4294967296) (ws : List (List Byte)) (h : Words s ws)
    (hn : 536870911 ≤ ws.length) : split s = none := by
  rw [split, count_correct s h0 hlen ws h, Option.bind_some, if_pos (by omega)]

/-- C55, for every string shorter than the limit. -/
theorem split_total_partial (s : List Byte) (h0 : (0 : Byte) ∉ s) (hlen : s.length < 536870911) :
    ∃ ws mem argv, Words s ws ∧ (∀ ws', Words s ws' → ws' = ws) ∧ count s = some ws.length ∧ split s = some (mem, argv, ws.length) := by
  obtain ⟨ws, h⟩ := words_exist s
  obtain ⟨mem, argv, e, -⟩ := split_partial s h0 (by omega) ws h (by have := words_length h; omega)
  exact ⟨ws, mem, argv, h, fun ws' h' => words_unique h' h, count_correct s h0 (by omega) ws h, e⟩

/-! A non-trivial case: `" ab\tc "`. -/
example : split [32, 97, 98, 9, 99, 32] = some ([32, 97, 98, 0, 99, 0, 0], [1, 4], 2) := by decide +kernel
example : Words [32, 97, 98, 9, 99, 32] [[97, 98], [99]] :=
  Words.word (blanks := [32]) (w := [97, 98]) (rest := [9, 99, 32]) (by simp [Blank]) (by simp [Blank]) (by simp [Blank])
    (Words.word (blanks := [9]) (w := [99]) (rest := [32]) (by simp [Blank]) (by simp [Blank]) (by simp [Blank]) (.none (by simp [Blank])))

end Bfdev.Argv

import Verif.Once.Model
/-!
C98: running something once.
-/
namespace Bfdev.Once

/-! ## Theorems -/

theorem reach_ok (s : Sys) (t : Tid) (c : Bool) (h : ∀ u, s.loc u = .idle) :
    ∃ s', reach s t c = some s' ∧ (∀ u, s'.loc u = .idle) ∧ s'.log = (t, c) :: s.log ∧
      s'.already = (s.already || c) ∧ s'.runs = if c && !s.already then t :: s.runs else s.runs := by
  unfold reach step
  rw [h t]
  by_cases hc : (c && !s.already) = true
  · obtain ⟨rfl, hb⟩ : c = true ∧ s.already = false := by simpa using hc
    simp only [hb, Bool.not_false, Bool.and_true, if_true, bind, Option.bind, upd]
    refine ⟨_, rfl, fun u => ?_, rfl, rfl, rfl⟩
    by_cases hu : u = t
    · simp [hu, upd]
    · simp [hu, h u, upd]
  · simp only [if_neg hc, bind, Option.bind, h t]
    refine ⟨_, rfl, h, rfl, ?_, rfl⟩
    cases c <;> cases hb : s.already <;> simp_all

/-- **C98**, without interference: however often and by whomever the place is reached, the function runs exactly at the first time the condition holds, never
if it never does, and every time the condition is handed back. -/
theorem once_partial (l : List (Tid × Bool)) :
    ∃ s, seq init l = some s ∧ s.log = l.reverse ∧ s.runs = ((l.find? (·.2)).map (·.1)).toList := by
  have gen : ∀ (l : List (Tid × Bool)) (s : Sys), (∀ u, s.loc u = .idle) → ∃ s', seq s l = some s' ∧ s'.log = l.reverse ++ s.log ∧
      s'.runs = if s.already then s.runs else ((l.find? (·.2)).map (·.1)).toList ++ s.runs := by
    intro l
    induction l with
    | nil => intro s _; refine ⟨s, rfl, rfl, ?_⟩; simp
    | cons x l ih =>
      obtain ⟨t, c⟩ := x
      intro s hs
      obtain ⟨s1, e1, h1, h2, h3, h4⟩ := reach_ok s t c hs
      obtain ⟨s2, e2, h5, h6⟩ := ih s1 h1
      refine ⟨s2, by simp [seq, e1, e2], by rw [h5, h2]; simp, ?_⟩
      rw [h6, h3, h4]
      cases c <;> cases hb : s.already <;> simp
  obtain ⟨s, h1, h2, h3⟩ := gen l init (fun _ => rfl)
  refine ⟨s, h1, by simpa [init] using h2, by simpa [init] using h3⟩

/-- In any schedule: no thread runs the function twice; it runs only if the condition held; and once everybody is through, it ran if the condition ever
held. -/
theorem once_each (l : List (Tid × Act)) {s : Sys} (h : run init l = some s) :
    s.runs.Nodup ∧ (∀ t ∈ s.runs, (t, true) ∈ s.log) ∧ ((∀ t, s.loc t = .idle) → (∃ t, (t, true) ∈ s.log) → s.runs ≠ []) := by
  let P : Sys → Prop := fun s => s.runs.Nodup ∧ (∀ t ∈ s.runs, (t, true) ∈ s.log) ∧ (∀ t ∈ s.runs, s.loc t = .idle) ∧ (s.already = true ↔ s.runs ≠ []) ∧
    ((∃ t, (t, true) ∈ s.log) → s.runs ≠ [])
  have hstep : ∀ {s s' : Sys} {t : Tid} {a : Act}, P s → step s t a = some s' → P s' := by
    intro s s' t a ⟨h1, h2, h3, h4, h5⟩ e
    unfold step at e
    split at e
    · rename_i c hl
      by_cases hc : (c && !s.already) = true
      · rw [if_pos hc] at e
        cases e
        obtain ⟨rfl, hb⟩ : c = true ∧ s.already = false := by simpa using hc
        have hr : s.runs = [] := by
          by_cases hr : s.runs = []
          · exact hr
          · rw [h4.2 hr] at hb; cases hb
        refine ⟨h1, h2, fun u hu => ?_, h4, h5⟩
        rw [show ({ s with loc := upd s.loc t .passed } : Sys).runs = s.runs from rfl, hr] at hu
        cases hu
      · rw [if_neg hc] at e
        cases e
        refine ⟨h1, fun u hu => List.mem_cons_of_mem _ (h2 u hu), h3, h4, ?_⟩
        rintro ⟨u, hu⟩
        rcases List.mem_cons.1 hu with hu | hu
        · cases hu
          rw [← h4]
          simpa using hc
        · exact h5 ⟨u, hu⟩
    · rename_i hl
      cases e
      have hnot : t ∉ s.runs := fun hm => by
        rw [h3 t hm] at hl; cases hl
      refine ⟨List.nodup_cons.2 ⟨hnot, h1⟩, ?_, ?_, by simp, by simp⟩
      · intro u hu
        rcases List.mem_cons.1 hu with rfl | hu
        · exact List.mem_cons_self
        · exact List.mem_cons_of_mem _ (h2 u hu)
      · intro u hu
        show upd s.loc t .idle u = .idle
        unfold upd
        rcases List.mem_cons.1 hu with rfl | hu
        · simp
        · split
          · rfl
          · exact h3 u hu
    · cases e
  have gen : ∀ (l : List (Tid × Act)) {s0 s : Sys}, P s0 → run s0 l = some s → P s := by
    intro l
    induction l with
    | nil => intro s0 s h e; cases e; exact h
    | cons x l ih =>
      obtain ⟨t, a⟩ := x
      intro s0 s h e
      obtain ⟨s1, e1, e2⟩ := Option.bind_eq_some_iff.1 e
      exact ih (hstep h e1) e2
  obtain ⟨h1, h2, -, -, h5⟩ := gen l (s0 := init) ⟨by simp [init], by simp [init], by simp [init], by simp [init], by simp [init]⟩ h
  exact ⟨h1, h2, fun _ hx => h5 hx⟩

/-- Disagreement: two threads that reach the place at the same time both run the function; for any number of threads there is a schedule in which all do. -/
theorem once_violated (n : Nat) : ∃ l s, run init l = some s ∧ s.runs = (List.range n).reverse := by
  have first : ∀ k, ∃ s, run init ((List.range k).map fun t => (t, Act.reach true)) = some s ∧ s.already = false ∧ s.runs = [] ∧
      (∀ t, s.loc t = if t < k then .passed else .idle) := by
    intro k
    induction k with
    | zero => exact ⟨init, rfl, rfl, rfl, fun t => by simp [init]⟩
    | succ k ih =>
      obtain ⟨s, e, h1, h2, h3⟩ := ih
      have hrun : ∀ (l1 l2 : List (Tid × Act)) (s0 : Sys), run s0 (l1 ++ l2) = (run s0 l1).bind fun s => run s l2 := by
        intro l1
        induction l1 with
        | nil => intro l2 s0; rfl
        | cons x l1 ih => intro l2 s0; simp only [List.cons_append, run]; cases step s0 x.1 x.2 with
          | none => rfl
          | some s1 => exact ih l2 s1
      refine ⟨{ s with loc := upd s.loc k .passed }, ?_, h1, h2, fun t => ?_⟩
      · rw [List.range_succ, List.map_append, hrun, e]
        simp [run, step, h3 k, h1]
      · show upd s.loc k .passed t = _
        unfold upd
        by_cases ht : t = k
        · simp [ht]
        · rw [if_neg ht, h3]
          by_cases h : t < k
          · rw [if_pos h, if_pos (Nat.lt_succ_of_lt h)]
          · rw [if_neg h, if_neg (fun h' => h (Nat.lt_of_le_of_ne (Nat.le_of_lt_succ h') ht))]
  have second : ∀ (ts : List Tid) (s : Sys), ts.Nodup → (∀ t ∈ ts, s.loc t = .passed) → ∃ s', run s (ts.map fun t => (t, Act.go)) = some s' ∧ s'.runs = ts.reverse ++ s.runs := by
    intro ts
    induction ts with
    | nil => intro s _ _; exact ⟨s, rfl, rfl⟩
    | cons t ts ih =>
      intro s hn hl
      rw [List.nodup_cons] at hn
      obtain ⟨s', e, h⟩ := ih { s with already := true, loc := upd s.loc t .idle, runs := t :: s.runs, log := (t, true) :: s.log } hn.2 (fun u hu => by
        show upd s.loc t .idle u = .passed
        unfold upd
        rw [if_neg (show ¬u = t from fun e => hn.1 (e ▸ hu))]
        exact hl u (List.mem_cons_of_mem _ hu))
      refine ⟨s', ?_, by rw [h]; simp⟩
      simp only [List.map_cons, run, step, hl t List.mem_cons_self]
      exact e
  obtain ⟨s, e, -, h2, h3⟩ := first n
  obtain ⟨s', e', h'⟩ := second (List.range n) s List.nodup_range (fun t ht => by rw [h3, if_pos (List.mem_range.1 ht)])
  have hrun : ∀ (l1 l2 : List (Tid × Act)) (s0 : Sys), run s0 (l1 ++ l2) = (run s0 l1).bind fun s => run s l2 := by
    intro l1
    induction l1 with
    | nil => intro l2 s0; rfl
    | cons x l1 ih => intro l2 s0; simp only [List.cons_append, run]; cases step s0 x.1 x.2 with
      | none => rfl
      | some s1 => exact ih l2 s1
  refine ⟨_, s', by rw [hrun, e]; exact e', by rw [h', h2]; simp⟩

example : (run init [(0, .reach false), (0, .reach true), (1, .reach true), (0, .go), (0, .reach true), (1, .go)]).map (fun s => (s.runs, s.log)) =
    some ([1, 0], [(1, true), (0, true), (0, true), (0, false)]) := by decide +kernel
example : (seq init [(0, false), (1, true), (0, true), (1, true)]).map (·.runs) = some [1] := by decide +kernel

end Bfdev.Once

import Verif.Action.Model
/-!
C132: an action calls what it was last given.
-/
namespace Bfdev.Action

/-! ### Specification, on what has happened before -/

/-- The function last given, unless it has been taken away since; `past` has the newest event first. -/
def lastFunc : List Event → Option Nat
  | [] => none
  | .change (.init f _) :: _ => f
  | .change .clear :: _ => none
  | .change (.update _) :: past => lastFunc past
  | .enter _ _ :: past => lastFunc past
  | .result _ :: past => lastFunc past

/-- The argument last given. -/
def lastData : List Event → Option Nat
  | [] => none
  | .change (.init _ d) :: _ => some d
  | .change (.update d) :: _ => some d
  | .change .clear :: past => lastData past
  | .enter _ _ :: past => lastData past
  | .result _ :: past => lastData past

/-- What a program has to do: the events before and the events after it. -/
inductive Correct (w : World) : List Op → List Event → List Event → Prop where
  | done past : Correct w [] past past
  | change c ops past after : Correct w ops (.change c :: past) after → Correct w (.change c :: ops) past after
  /-- A call without a function says that there is none and changes nothing. -/
  | none ops past after : lastFunc past = Option.none → Correct w ops (.result (-61) :: past) after → Correct w (.call :: ops) past after
  /-- Any other call calls the function last given, once, with the argument last given, and returns its result. -/
  | some ops past f d body r mid after : lastFunc past = Option.some f → lastData past = Option.some d → w past f d = (body, r) →
      Correct w body (.enter f d :: past) mid → Correct w ops (.result r :: mid) after → Correct w (.call :: ops) past after

/-- The action is what the past says. -/
def Is (past : List Event) (a : Act) : Prop := lastFunc past = a.func ∧ lastData past = some a.data

theorem is_change {past : List Event} {a : Act} (h : Is past a) (c : Change) : Is (.change c :: past) (c.run a) := by
  obtain ⟨h1, h2⟩ := h
  cases c <;> simp [Is, lastFunc, lastData, Change.run, init, update, clear, h1, h2]

theorem run_correct (w : World) : ∀ (n : Nat) (ops : List Op) (past : List Event) (a : Act), Is past a → ∀ s, run w n ops past a = some s →
    Correct w ops past s.1 ∧ Is s.1 s.2
  | 0, _, _, _, _, _, e => by simp [run] at e
  | n + 1, [], past, a, h, s, e => by
    rw [run, Option.some.injEq] at e
    subst e
    exact ⟨.done past, h⟩
  | n + 1, .change c :: ops, past, a, h, s, e => by
    rw [run] at e
    obtain ⟨h1, h2⟩ := run_correct w n ops _ _ (is_change h c) s e
    exact ⟨.change c ops past _ h1, h2⟩
  | n + 1, .call :: ops, past, a, h, s, e => by
    rw [run] at e
    cases hf : a.func with
    | none =>
      simp only [hf] at e
      obtain ⟨h1, h2⟩ := run_correct w n ops (.result (-61) :: past) a h s e
      exact ⟨.none ops past _ (h.1.trans hf) h1, h2⟩
    | some f =>
      simp only [hf] at e
      obtain ⟨t, e1, e2⟩ := Option.bind_eq_some_iff.1 e
      obtain ⟨h1, h2⟩ := run_correct w n _ (.enter f a.data :: past) a h t e1
      obtain ⟨h3, h4⟩ := run_correct w n ops (.result (w past f a.data).2 :: t.1) t.2 h2 s e2
      exact ⟨.some ops past f a.data _ _ t.1 _ (h.1.trans hf) h.2 rfl h1 h3, h4⟩

theorem run_more (w : World) : ∀ (n m : Nat) (ops : List Op) (past : List Event) (a : Act) s, n ≤ m → run w n ops past a = some s →
    run w m ops past a = some s
  | 0, _, _, _, _, _, _, e => by simp [run] at e
  | _ + 1, 0, _, _, _, _, hnm, _ => by omega
  | n + 1, m + 1, [], past, a, s, _, e => by rw [run] at e ⊢; exact e
  | n + 1, m + 1, .change c :: ops, past, a, s, hnm, e => by
    rw [run] at e ⊢
    exact run_more w n m ops _ _ s (by omega) e
  | n + 1, m + 1, .call :: ops, past, a, s, hnm, e => by
    rw [run] at e ⊢
    cases hf : a.func with
    | none =>
      simp only [hf] at e ⊢
      exact run_more w n m ops _ _ s (by omega) e
    | some f =>
      simp only [hf] at e ⊢
      obtain ⟨t, e1, e2⟩ := Option.bind_eq_some_iff.1 e
      rw [run_more w n m _ _ _ t (by omega) e1]
      exact run_more w n m ops _ _ s (by omega) e2

theorem correct_run (w : World) {ops : List Op} {past after : List Event} (h : Correct w ops past after) :
    ∀ a, Is past a → ∃ n a', run w n ops past a = some (after, a') := by
  induction h with
  | done past => intro a _; exact ⟨1, a, rfl⟩
  | change c ops past after _ ih =>
    intro a ha
    obtain ⟨n, a', e⟩ := ih _ (is_change ha c)
    exact ⟨n + 1, a', e⟩
  | none ops past after hf _ ih =>
    intro a ha
    obtain ⟨n, a', e⟩ := ih a ha
    have hf' : a.func = Option.none := ha.1.symm.trans hf
    exact ⟨n + 1, a', by rw [run]; simp only [hf']; exact e⟩
  | some ops past f d body r mid after hf hd hw _ _ ih1 ih2 =>
    intro a ha
    have hf' : a.func = Option.some f := ha.1.symm.trans hf
    have hd' : a.data = d := Option.some.inj (ha.2.symm.trans hd)
    obtain ⟨n1, a1, e1⟩ := ih1 a ha
    have h1 := (run_correct w n1 body (.enter f d :: past) a ha _ e1).2
    obtain ⟨n2, a2, e2⟩ := ih2 a1 h1
    refine ⟨max n1 n2 + 1, a2, ?_⟩
    rw [run]
    simp only [hf', hd', hw]
    rw [run_more w n1 (max n1 n2) _ _ _ _ (Nat.le_max_left _ _) e1]
    exact run_more w n2 (max n1 n2) _ _ _ _ (Nat.le_max_right _ _) e2

/-- **C132.** In every program that starts by initialising an action, whatever the functions do to the action while they are called, calling it
again included, every call calls the function last given with the argument last given, once, and returns its result, or says that there is
none. The program comes to its end exactly if the specification says so. -/
theorem actions (w : World) (func : Option Nat) (data : Nat) (ops : List Op) (after : List Event) :
    (∃ n a, run w n ops [.change (.init func data)] (init func data) = some (after, a)) ↔ Correct w ops [.change (.init func data)] after := by
  have h : Is [.change (.init func data)] (init func data) := ⟨rfl, rfl⟩
  constructor
  · rintro ⟨n, a, e⟩
    exact (run_correct w n ops _ _ h _ e).1
  · intro hc
    exact correct_run w hc _ h

/-- Not vacuous: function 1 takes itself away and calls the action again. -/
example : run (fun _ _ d => ([.change .clear, .call], d)) 10 [.change (.update 7), .call, .call] [.change (.init (some 1) 5)] (init (some 1) 5) =
    some ([.result (-61), .result 7, .result (-61), .change .clear, .enter 1 7, .change (.update 7), .change (.init (some 1) 5)], ⟨none, 7⟩) := by
  decide

end Bfdev.Action

import Verif.Fsm.Spec
/-! The state machine: C34, C76, C77. -/
namespace Bfdev.Fsm

/-! ### Finding a transition -/

theorem findIn_of_picks {G : Graph} {env : Env} {ev : Nat} {l : List Nat} {log : List Call} {r : Option Nat} {log' : List Call}
    (h : Picks G env ev l log r log') : findIn G env ev l log = (r, log') := by
  induction h with
  | nil => rfl
  | other h _ ih =>
    rw [findIn]; unfold cond
    rw [if_pos h]
    simpa using ih
  | free h1 h2 =>
    rw [findIn]; unfold cond
    simp [h1, h2]
  | holds h1 h2 h3 =>
    rw [findIn]; unfold cond call
    simp [h1, h2, h3]
  | rejects h1 h2 h3 _ ih =>
    rw [findIn]; unfold cond call
    simpa [h1, h2, h3] using ih

theorem picks_total (G : Graph) (env : Env) (ev : Nat) (l : List Nat) : ∀ log, ∃ r log', Picks G env ev l log r log' := by
  induction l with
  | nil => intro log; exact ⟨_, _, .nil log⟩
  | cons t l ih =>
    intro log
    by_cases h1 : (G.tr t).type = ev
    · rcases h2 : (G.tr t).guard with _ | _
      · exact ⟨_, _, .free h1 h2⟩
      · by_cases h3 : env.ret (log ++ [.guard t]) = 0
        · exact ⟨_, _, .holds h1 h2 h3⟩
        · obtain ⟨r, log', h⟩ := ih (log ++ [.guard t])
          exact ⟨_, _, .rejects h1 h2 h3 h⟩
    · obtain ⟨r, log', h⟩ := ih log
      exact ⟨_, _, .other h1 h⟩

theorem find_of_offers {G : Graph} {env : Env} {ev s : Nat} {log : List Call} {r : Option Nat} {log' : List Call}
    (h : Offers G env ev s log r log') : find G env ev s log = (r, log') := by
  unfold find
  cases h with
  | own h => rw [findIn_of_picks h]
  | handler h h2 => rw [findIn_of_picks h]; dsimp only; rw [if_pos h2]
  | nothing h h2 => rw [findIn_of_picks h]; dsimp only; rw [if_neg (by simp [h2])]

theorem offers_total (G : Graph) (env : Env) (ev s : Nat) (log : List Call) : ∃ r log', Offers G env ev s log r log' := by
  obtain ⟨r, log', h⟩ := picks_total G env ev (G.st s).trans log
  rcases r with _ | t
  · rcases h2 : (G.st s).exception with _ | _
    · exact ⟨_, _, .nothing h h2⟩
    · exact ⟨_, _, .handler h h2⟩
  · exact ⟨_, _, .own h⟩

theorem descend_of {G : Graph} {x n : Nat} (h : Descends G x n) : ∃ k, ∀ fuel, k ≤ fuel → descend G fuel x = some n := by
  induction h with
  | leaf h =>
    refine ⟨1, fun fuel hf => ?_⟩
    obtain ⟨f, rfl⟩ : ∃ f, fuel = f + 1 := ⟨fuel - 1, by omega⟩
    rw [descend, h]
  | down h _ ih =>
    obtain ⟨k, hk⟩ := ih
    refine ⟨k + 1, fun fuel hf => ?_⟩
    obtain ⟨f, rfl⟩ : ∃ f, fuel = f + 1 := ⟨fuel - 1, by omega⟩
    rw [descend, h]
    exact hk f (by omega)

/-- The loop climbs to the state that offers a transition. -/
theorem loop_dispatch {G : Graph} {env : Env} {ev c : Nat} {log : List Call} {r : Option (Nat × Nat)} {log' : List Call}
    (h : Dispatch G env ev c log r log') (m : Fsm) :
    ∃ k c' log1, (∀ fuel, loop G env ev (fuel + k) m c log = loop G env ev fuel m c' log1) ∧
      (∀ s t, r = some (s, t) → c' = s ∧ Offers G env ev s log1 (some t) log') ∧
      (r = none → Offers G env ev c' log1 none log' ∧ (G.st c').parent = none) := by
  induction h with
  | here h => exact ⟨0, _, _, fun _ => rfl, fun s t e => by simp at e; obtain ⟨rfl, rfl⟩ := e; exact ⟨rfl, h⟩, fun e => by simp at e⟩
  | top h1 h2 => exact ⟨0, _, _, fun _ => rfl, fun s t e => by simp at e, fun _ => ⟨h1, h2⟩⟩
  | up h1 h2 _ ih =>
    obtain ⟨k, c', log1, e, h⟩ := ih
    refine ⟨k + 1, c', log1, fun fuel => ?_, h⟩
    rw [← Nat.add_assoc, loop]
    unfold round
    rw [find_of_offers h1]
    dsimp only
    rw [h2]
    exact e fuel

/-! ### The callbacks -/

theorem runAll_append (env : Env) (l l' : List Call) : ∀ log, runAll env (l ++ l') log =
    if (runAll env l log).1 ≠ 0 then runAll env l log else runAll env l' (runAll env l log).2 := by
  induction l with
  | nil => intro log; simp [runAll]
  | cons c l ih =>
    intro log
    rw [List.cons_append, runAll, runAll]
    by_cases h : env.ret (log ++ [c]) ≠ 0
    · simp only [if_pos h]
    · simp only [if_neg h]; exact ih _

theorem runAll_opt (env : Env) (p : Prop) [Decidable p] (c : Call) (log : List Call) :
    (if p then call env log c else (0, log)) = runAll env (if p then [c] else []) log := by
  by_cases h : p
  · simp only [if_pos h, call, runAll]
    split <;> simp_all
  · simp only [if_neg h, runAll]

theorem fire_eq (G : Graph) (env : Env) (m : Fsm) (s t n : Nat) (log : List Call) :
    fire G env m s t n log =
      (if (runAll env (callbacks G s t n) log).1 ≠ 0 then .done m (runAll env (callbacks G s t n) log).1 else arrive G env m s t n,
        (runAll env (callbacks G s t n) log).2) := by
  unfold fire callbacks
  dsimp only
  rw [List.append_assoc, runAll_append, runAll_append]
  simp only [runAll_opt, ge_iff_le]
  generalize (if s ≠ n ∧ (G.tr t).stack ≤ 0 ∧ (G.st s).exit = true then [Call.exit s] else []) = l1
  generalize (if (G.tr t).action = true then [Call.action t s n] else []) = l2
  generalize (if s ≠ n ∧ 0 ≤ (G.tr t).stack ∧ (G.st n).enter = true then [Call.enter n] else []) = l3
  by_cases h1 : (runAll env l1 log).1 = 0
  · by_cases h2 : (runAll env l2 (runAll env l1 log).2).1 = 0
    · by_cases h3 : (runAll env l3 (runAll env l2 (runAll env l1 log).2).2).1 = 0 <;> simp [h1, h2, h3]
    · simp [h1, h2]
  · simp [h1]

theorem curr_push (m : Fsm) (s : Option Nat) : curr (pushState m s) = s := by
  unfold pushState curr
  dsimp only
  split <;> simp_all
theorem prev_push (m : Fsm) (s : Option Nat) : prev (pushState m s) = curr m := by
  unfold pushState curr prev
  dsimp only
  by_cases h : (m.count + 1) % 2 ^ 32 % 2 = 0
  · rw [if_pos h]
    dsimp only
    rw [if_neg (by omega), if_neg (by omega)]
  · rw [if_neg h]
    dsimp only
    rw [if_pos (by omega), if_pos (by omega)]
theorem push_error (m : Fsm) (s : Option Nat) : (pushState m s).error = m.error := by
  unfold pushState; dsimp only; split <;> rfl
theorem push_stack (m : Fsm) (s : Option Nat) : (pushState m s).stack = m.stack := by
  unfold pushState; dsimp only; split <;> rfl

theorem goes_facts {G : Graph} {m m' : Fsm} {t n : Nat} (h : Goes G m t m' n) : curr m' = curr m ∧ prev m' = prev m ∧ m'.error = m.error := by
  cases h <;> exact ⟨rfl, rfl, rfl⟩

theorem take_of_goes {G : Graph} {env : Env} {m m' : Fsm} {t n : Nat} (h : Goes G m t m' n) (s : Nat) (log : List Call) :
    ∃ k, ∀ fuel, k ≤ fuel → take G env fuel m s t log = some (fire G env m' s t n log) := by
  cases h with
  | named h1 h2 =>
    obtain ⟨k, hk⟩ := descend_of h2
    refine ⟨k, fun fuel hf => ?_⟩
    unfold take
    rw [h1]
    dsimp only
    rw [hk fuel hf]
    rfl
  | @popped rest x more n h1 h2 h3 h4 h5 =>
    obtain ⟨k, hk⟩ := descend_of h5
    refine ⟨k, fun fuel hf => ?_⟩
    unfold take
    rw [h1, h2, h4]
    dsimp only
    have e0 : (-(-((more.length + 1 : Nat) : Int))).toNat = more.length + 1 := by omega
    have e1 : (rest ++ x :: more).length = rest.length + (more.length + 1) := by simp
    rw [if_pos (by omega), if_neg (by omega), e0, e1, if_neg (by omega), Nat.add_sub_cancel, List.getElem?_append_right (by omega)]
    simp only [Nat.sub_self, List.getElem?_cons_zero]
    rw [hk fuel hf, List.take_left' rfl]
    rfl

theorem arrive_done {G : Graph} {env : Env} {m m' : Fsm} {s t n : Nat} (he : m'.error = m.error) (hc : curr m' = curr m)
    (hx : (G.tr t).cross = false ∨ outcome G env m s t n ≠ 0) :
    ∃ m'', arrive G env m' s t n = .done m'' (outcome G env m s t n) ∧ Entered G env m m' m'' s t n := by
  have hp : prev (pushState m' (some n)) = curr m := by rw [prev_push, hc]
  unfold arrive Entered outcome at *
  dsimp only
  rw [push_error, he]
  by_cases h1 : m.error = some n
  · simp only [if_pos h1]
    exact ⟨_, rfl, curr_push _ _, hp, by rw [push_error, he], by simp [push_stack]⟩
  · simp only [if_neg h1] at *
    by_cases h2 : s = n
    · simp only [if_pos h2]
      exact ⟨_, rfl, curr_push _ _, hp, by rw [push_error, he], by simp [push_stack]⟩
    · simp only [if_neg h2] at *
      by_cases h3 : (G.st n).trans = [] ∧ (G.st n).exception = false
      · have h3' : final (G.st n) = true := by unfold final; simp [h3]
        simp only [if_pos h3, if_pos h3']
        exact ⟨_, rfl, curr_push _ _, hp, by rw [push_error, he], by simp [push_stack]⟩
      · have h3' : ¬ final (G.st n) = true := by unfold final; simpa using h3
        simp only [if_neg h3, if_neg h3'] at *
        by_cases h4 : 0 < (G.tr t).stack
        · rcases h5 : env.grant with _ | _
          · simp only [gt_iff_lt, if_pos h4, h4, h5, and_self, if_true, Bool.not_false] at *
            exact ⟨_, rfl, curr_push _ _, hp, by rw [push_error, he], by simp [push_stack]⟩
          · simp only [gt_iff_lt, if_pos h4, h4, h5, Bool.not_true, Bool.false_eq_true, if_false, and_false, ne_eq, not_true_eq_false, or_false, reduceCtorEq] at *
            rw [hx]
            exact ⟨_, rfl, curr_push m' _, hp, rfl, by simp [push_stack]⟩
        · simp only [gt_iff_lt, if_neg h4, h4, false_and, if_false, ne_eq, not_true_eq_false, or_false, and_false] at *
          rw [hx]
          exact ⟨_, rfl, curr_push _ _, hp, by rw [push_error, he], push_stack _ _⟩

theorem arrive_again {G : Graph} {env : Env} {m m' : Fsm} {s t n : Nat} (he : m'.error = m.error) (hc : curr m' = curr m)
    (hx : (G.tr t).cross = true) (h0 : outcome G env m s t n = 0) :
    ∃ m'', arrive G env m' s t n = .again m'' n ∧ Entered G env m m' m'' s t n := by
  have hp : prev (pushState m' (some n)) = curr m := by rw [prev_push, hc]
  unfold Entered
  rw [h0]
  unfold arrive outcome at *
  dsimp only
  rw [push_error, he]
  by_cases h1 : m.error = some n
  · simp [if_pos h1] at h0
  · simp only [if_neg h1] at *
    by_cases h2 : s = n
    · simp [if_pos h2] at h0
    · simp only [if_neg h2] at *
      by_cases h3 : (G.st n).trans = [] ∧ (G.st n).exception = false
      · simp [if_pos h3] at h0
      · have h3' : ¬ final (G.st n) = true := by unfold final; simpa using h3
        simp only [if_neg h3, if_neg h3'] at *
        by_cases h4 : 0 < (G.tr t).stack
        · rcases h5 : env.grant with _ | _
          · simp [h4, h5] at h0
          · simp only [gt_iff_lt, if_pos h4, h4, h5, Bool.not_true, Bool.false_eq_true, if_false, and_true, hx, if_true] at *
            exact ⟨_, rfl, curr_push m' _, hp, rfl, by simp [push_stack]⟩
        · simp only [gt_iff_lt, if_neg h4, h4, and_false, if_false, hx, if_true] at *
          exact ⟨_, rfl, curr_push _ _, hp, by rw [push_error, he], push_stack _ _⟩

/-! ### C34: dispatch -/

/-- C34: a state and an event always determine a transition or none, as long as ancestors do not form a cycle. -/
theorem dispatch_total (G : Graph) (env : Env) (ev : Nat) (rank : Nat → Nat) (hr : ∀ s p, (G.st s).parent = some p → rank p < rank s) (c : Nat) (log : List Call) :
    ∃ r log', Dispatch G env ev c log r log' := by
  have key : ∀ k c log, rank c < k → ∃ r log', Dispatch G env ev c log r log' := by
    intro k
    induction k with
    | zero => intro c _ h; omega
    | succ k ih =>
      intro c log h
      obtain ⟨r, log1, ho⟩ := offers_total G env ev c log
      rcases r with _ | t
      · rcases hp : (G.st c).parent with _ | p
        · exact ⟨_, _, .top ho hp⟩
        · obtain ⟨r, log', hd⟩ := ih p log1 (by have := hr c p hp; omega)
          exact ⟨_, _, .up ho hp hd⟩
      · exact ⟨_, _, .here ho⟩
  exact key _ c log (Nat.lt_succ_self _)

/-- C34: the transition that dispatch finds is performed. Its callbacks run in order; when one fails its value is returned and the current
and previous state are unchanged; when all succeed and the transition does not cross, the machine is in the new state and the return value
says what happened. Missing: crossing transitions, see `handle_cross`, `atomic_violated`. -/
theorem handle_dispatch_partial (G : Graph) (env : Env) (ev : Nat) (m : Fsm) (c : Nat) (log log' : List Call) (s t : Nat) (m' : Fsm) (n : Nat)
    (hc : curr m = some c) (hd : Dispatch G env ev c log (some (s, t)) log') (hg : Goes G m t m' n) :
    ((runAll env (callbacks G s t n) log').1 ≠ 0 → curr m' = curr m ∧ prev m' = prev m ∧ ∃ k, ∀ fuel, k ≤ fuel →
      handle G env ev fuel m log = some (m', (runAll env (callbacks G s t n) log').1, (runAll env (callbacks G s t n) log').2)) ∧
    ((runAll env (callbacks G s t n) log').1 = 0 → (G.tr t).cross = false ∨ outcome G env m s t n ≠ 0 →
      ∃ m'', Entered G env m m' m'' s t n ∧ ∃ k, ∀ fuel, k ≤ fuel →
        handle G env ev fuel m log = some (m'', outcome G env m s t n, (runAll env (callbacks G s t n) log').2)) := by
  obtain ⟨k, c', log1, e, h, -⟩ := loop_dispatch hd m
  obtain ⟨rfl, ho⟩ := h s t rfl
  obtain ⟨k2, hk2⟩ := take_of_goes (env := env) hg c' log'
  obtain ⟨f1, f2, f3⟩ := goes_facts hg
  have hl : ∀ fuel, k2 + k + 1 ≤ fuel → ∃ f, handle G env ev fuel m log = match fire G env m' c' t n log' with
      | (.done m code, log) => some (m, code, log)
      | (.again m c, log) => loop G env ev f m c log := by
    intro fuel hf
    obtain ⟨f, rfl⟩ : ∃ f, fuel = f + 1 + k := ⟨fuel - k - 1, by omega⟩
    refine ⟨f, ?_⟩
    unfold handle
    rw [hc]
    dsimp only
    rw [e, loop]
    unfold round
    rw [find_of_offers ho]
    dsimp only
    rw [hk2 _ (by omega)]
    rcases fire G env m' c' t n log' with ⟨o, l⟩
    rcases o <;> rfl
  rw [fire_eq] at hl
  constructor
  · intro h0
    refine ⟨f1, f2, k2 + k + 1, fun fuel hf => ?_⟩
    obtain ⟨f, hf⟩ := hl fuel hf
    rw [hf, if_pos h0]
  · intro h0 hx
    obtain ⟨m'', a1, a2⟩ := arrive_done (G := G) (env := env) (s := c') (t := t) (n := n) f3 f1 hx
    refine ⟨m'', a2, k2 + k + 1, fun fuel hf => ?_⟩
    obtain ⟨f, hf⟩ := hl fuel hf
    rw [hf, if_neg (by simp [h0]), a1]

/-- A crossing transition that succeeds: the event is then handled by the machine in the new state. -/
theorem handle_cross (G : Graph) (env : Env) (ev : Nat) (m : Fsm) (c : Nat) (log log' : List Call) (s t : Nat) (m' : Fsm) (n : Nat)
    (hc : curr m = some c) (hd : Dispatch G env ev c log (some (s, t)) log') (hg : Goes G m t m' n)
    (h0 : (runAll env (callbacks G s t n) log').1 = 0) (hx : (G.tr t).cross = true) (ho : outcome G env m s t n = 0) :
    ∃ k d m'', Entered G env m m' m'' s t n ∧
      ∀ fuel, k ≤ fuel → handle G env ev (fuel + d) m log = handle G env ev fuel m'' (runAll env (callbacks G s t n) log').2 := by
  obtain ⟨k, c', log1, e, h, -⟩ := loop_dispatch hd m
  obtain ⟨rfl, hof⟩ := h s t rfl
  obtain ⟨k2, hk2⟩ := take_of_goes (env := env) hg c' log'
  obtain ⟨f1, f2, f3⟩ := goes_facts hg
  obtain ⟨m'', a1, a2⟩ := arrive_again (G := G) (env := env) (s := c') (t := t) (n := n) f3 f1 hx ho
  have hgo : ∀ f, k2 ≤ f + 1 → handle G env ev (f + 1 + k) m log = handle G env ev f m'' (runAll env (callbacks G c' t n) log').2 := by
    intro f hf
    unfold handle
    rw [hc, a2.1]
    dsimp only
    rw [e, loop]
    unfold round
    rw [find_of_offers hof]
    dsimp only
    rw [hk2 _ hf]
    rw [fire_eq, if_neg (by simp [h0]), a1]
  refine ⟨k2, k + 1, m'', a2, fun fuel hf => ?_⟩
  rw [show fuel + (k + 1) = fuel + 1 + k by omega]
  exact hgo fuel (by omega)

/-- C34: an event for which neither the current state nor an ancestor offers a transition changes nothing. -/
theorem handle_nochange (G : Graph) (env : Env) (ev : Nat) (m : Fsm) (c : Nat) (log log' : List Call) (hc : curr m = some c)
    (hd : Dispatch G env ev c log none log') : ∃ k, ∀ fuel, k ≤ fuel → handle G env ev fuel m log = some (m, 1, log') := by
  obtain ⟨k, c', log1, e, -, h⟩ := loop_dispatch hd m
  obtain ⟨h1, h2⟩ := h rfl
  refine ⟨k + 1, fun fuel hf => ?_⟩
  obtain ⟨f, rfl⟩ : ∃ f, fuel = f + 1 + k := ⟨fuel - k - 1, by omega⟩
  unfold handle
  rw [hc]
  dsimp only
  rw [e, loop]
  unfold round
  rw [find_of_offers h1]
  dsimp only
  rw [h2]

theorem handle_take {G : Graph} {env : Env} {ev : Nat} {m m' : Fsm} {c s t : Nat} {log log' l2 : List Call} {code : Int} (hc : curr m = some c)
    (hd : Dispatch G env ev c log (some (s, t)) log') (ht : ∀ fuel, take G env fuel m s t log' = some (.done m' code, l2)) :
    ∃ k, ∀ fuel, k ≤ fuel → handle G env ev fuel m log = some (m', code, l2) := by
  obtain ⟨k, c', log1, e, h, -⟩ := loop_dispatch hd m
  obtain ⟨rfl, ho⟩ := h s t rfl
  refine ⟨k + 1, fun fuel hf => ?_⟩
  obtain ⟨f, rfl⟩ : ∃ f, fuel = f + 1 + k := ⟨fuel - k - 1, by omega⟩
  unfold handle
  rw [hc]
  dsimp only
  rw [e, loop]
  unfold round
  rw [find_of_offers ho]
  dsimp only
  rw [ht]

/-- C34: a transition that pops more states than the stack holds is refused and changes nothing. -/
theorem handle_overflow (G : Graph) (env : Env) (ev : Nat) (m : Fsm) (c : Nat) (log log' : List Call) (s t : Nat) (hc : curr m = some c)
    (hd : Dispatch G env ev c log (some (s, t)) log') (hn : (G.tr t).next = none) (h1 : (m.stack.length : Int) < -(G.tr t).stack)
    (h2 : -2 ^ 31 < (G.tr t).stack) : ∃ k, ∀ fuel, k ≤ fuel → handle G env ev fuel m log = some (m, -75, log') := by
  apply handle_take hc hd
  intro fuel
  unfold take
  rw [hn]
  dsimp only
  rw [if_pos (by omega), if_neg (by omega), if_pos (by omega)]

/-- C34: a transition without target that pops nothing takes the machine to its error state, whose entry function is called; the return
value is the entry function's, or "no entry" when that is zero. -/
theorem handle_no_target (G : Graph) (env : Env) (ev : Nat) (m : Fsm) (c : Nat) (log log' : List Call) (s t : Nat) (hc : curr m = some c)
    (hd : Dispatch G env ev c log (some (s, t)) log') (hn : (G.tr t).next = none) (h1 : 0 ≤ (G.tr t).stack) :
    ∃ k m', curr m' = m.error ∧ prev m' = some c ∧ m'.stack = m.stack ∧ m'.error = m.error ∧ ∀ fuel, k ≤ fuel → handle G env ev fuel m log =
      some (match m.error with
        | none => (m', -2, log')
        | some e =>
          if (G.st e).enter then (m', if env.ret (log' ++ [.enter e]) ≠ 0 then env.ret (log' ++ [.enter e]) else -2, log' ++ [.enter e])
          else (m', -2, log')) := by
  have ht : ∀ fuel, take G env fuel m s t log' = some (noNext G env m log') := by
    intro fuel
    unfold take
    rw [hn]
    dsimp only
    rw [if_neg (by omega)]
  unfold noNext error at ht
  rcases he : m.error with _ | e
  · rw [he] at ht
    dsimp only at ht ⊢
    obtain ⟨k, hk⟩ := handle_take hc hd ht
    refine ⟨k, _, curr_push m _, by rw [prev_push, hc], push_stack m _, by rw [push_error, he], fun fuel hf => ?_⟩
    rw [hk fuel hf]
    simp
  · rw [he] at ht
    dsimp only at ht ⊢
    by_cases h : (G.st e).enter = true
    · rw [if_pos h] at ht
      unfold call at ht
      dsimp only at ht
      obtain ⟨k, hk⟩ := handle_take hc hd ht
      refine ⟨k, _, curr_push m _, by rw [prev_push, hc], push_stack m _, by rw [push_error, he], fun fuel hf => ?_⟩
      rw [hk fuel hf, if_pos h]
    · rw [if_neg h] at ht
      dsimp only at ht
      obtain ⟨k, hk⟩ := handle_take hc hd ht
      refine ⟨k, _, curr_push m _, by rw [prev_push, hc], push_stack m _, by rw [push_error, he], fun fuel hf => ?_⟩
      rw [hk fuel hf, if_neg h]
      simp

/-- C34: a machine without current state refuses every event. -/
theorem handle_invalid (G : Graph) (env : Env) (ev fuel : Nat) (m : Fsm) (log : List Call) (hc : curr m = none) :
    handle G env ev fuel m log = some (m, -22, log) := by
  unfold handle; rw [hc]

theorem descends_total (G : Graph) (rank : Nat → Nat) (hr : ∀ s e, (G.st s).entry = some e → rank e < rank s) (x : Nat) : ∃ n, Descends G x n := by
  have key : ∀ k x, rank x < k → ∃ n, Descends G x n := by
    intro k
    induction k with
    | zero => intro x h; omega
    | succ k ih =>
      intro x h
      rcases he : (G.st x).entry with _ | e
      · exact ⟨x, .leaf he⟩
      · obtain ⟨n, hn⟩ := ih e (by have := hr x e he; omega)
        exact ⟨n, .down he hn⟩
  exact key _ x (Nat.lt_succ_self _)

/-- C34: when neither ancestors nor entry states form a cycle and no transition crosses, every event is handled. -/
theorem handle_returns (G : Graph) (env : Env) (ev : Nat) (rp re : Nat → Nat) (hp : ∀ s p, (G.st s).parent = some p → rp p < rp s)
    (he : ∀ s e, (G.st s).entry = some e → re e < re s) (hx : ∀ t, (G.tr t).cross = false) (hs : ∀ t, -2 ^ 31 < (G.tr t).stack)
    (m : Fsm) (log : List Call) : ∃ r k, ∀ fuel, k ≤ fuel → handle G env ev fuel m log = some r := by
  rcases hc : curr m with _ | c
  · exact ⟨_, 0, fun fuel _ => handle_invalid G env ev fuel m log hc⟩
  · obtain ⟨r, log', hd⟩ := dispatch_total G env ev rp hp c log
    rcases r with _ | ⟨s, t⟩
    · obtain ⟨k, hk⟩ := handle_nochange G env ev m c log log' hc hd
      exact ⟨_, k, hk⟩
    · have go : (∃ m' n, Goes G m t m' n) → ∃ r k, ∀ fuel, k ≤ fuel → handle G env ev fuel m log = some r := by
        intro ⟨m', n, hg⟩
        obtain ⟨hk1, hk2⟩ := handle_dispatch_partial G env ev m c log log' s t m' n hc hd hg
        by_cases h0 : (runAll env (callbacks G s t n) log').1 = 0
        · obtain ⟨m1, -, k, h1⟩ := hk2 h0 (Or.inl (hx t))
          exact ⟨_, k, h1⟩
        · obtain ⟨-, -, k, h1⟩ := hk1 h0
          exact ⟨_, k, h1⟩
      rcases hn : (G.tr t).next with _ | x
      · by_cases h1 : 0 ≤ (G.tr t).stack
        · obtain ⟨k, m', -, -, -, -, hk⟩ := handle_no_target G env ev m c log log' s t hc hd hn h1
          exact ⟨_, k, hk⟩
        · by_cases h2 : (m.stack.length : Int) < -(G.tr t).stack
          · obtain ⟨k, hk⟩ := handle_overflow G env ev m c log log' s t hc hd hn h2 (hs t)
            exact ⟨_, k, hk⟩
          · have hst := hs t
            have hlen : m.stack.length - (-(G.tr t).stack).toNat < m.stack.length := by omega
            obtain ⟨n, hde⟩ := descends_total G re he (m.stack[m.stack.length - (-(G.tr t).stack).toNat])
            refine go ⟨_, n, .popped (rest := m.stack.take (m.stack.length - (-(G.tr t).stack).toNat))
              (more := m.stack.drop (m.stack.length - (-(G.tr t).stack).toNat + 1)) hn ?_ ?_ ?_ hde⟩
            · rw [List.length_drop]; omega
            · rw [List.length_drop]; omega
            · rw [List.getElem_cons_drop, List.take_append_drop]
      · obtain ⟨n, hde⟩ := descends_total G re he x
        exact go ⟨m, n, .named hn hde⟩

/-! ### C76: reset -/

/-- Machines that cannot be told apart by handling events. -/
def Same (a b : Fsm) : Prop := curr a = curr b ∧ a.error = b.error ∧ a.stack = b.stack

theorem same_push {a b : Fsm} (h : Same a b) (s : Option Nat) : Same (pushState a s) (pushState b s) :=
  ⟨by rw [curr_push, curr_push], by rw [push_error, push_error, h.2.1], by rw [push_stack, push_stack, h.2.2]⟩

/-- Outcomes of a round that agree. -/
inductive SameOut : Out → Out → Prop
  | done {a b code} : Same a b → SameOut (.done a code) (.done b code)
  | again {a b c} : Same a b → SameOut (.again a c) (.again b c)

theorem same_stack {a b : Fsm} (h : Same a b) (l : List Nat) : Same { a with stack := l } { b with stack := l } := ⟨h.1, h.2.1, rfl⟩

theorem arrive_same (G : Graph) (env : Env) {a b : Fsm} (h : Same a b) (c t n : Nat) : SameOut (arrive G env a c t n) (arrive G env b c t n) := by
  have hp := same_push h (some n)
  unfold arrive
  dsimp only
  rw [push_error, push_error, push_stack, push_stack, h.2.1, h.2.2]
  split
  · exact .done hp
  · split
    · exact .done hp
    · split
      · exact .done hp
      · split
        · split
          · exact .done hp
          · split
            · exact .again ⟨hp.1, rfl, rfl⟩
            · exact .done ⟨hp.1, rfl, rfl⟩
        · split
          · exact .again hp
          · exact .done hp

theorem fire_same (G : Graph) (env : Env) {a b : Fsm} (h : Same a b) (c t n : Nat) (log : List Call) :
    SameOut (fire G env a c t n log).1 (fire G env b c t n log).1 ∧ (fire G env a c t n log).2 = (fire G env b c t n log).2 := by
  rw [fire_eq, fire_eq]
  dsimp only
  refine ⟨?_, rfl⟩
  split
  · exact .done h
  · exact arrive_same G env h c t n

/-- Rounds that agree. -/
def SameRound (x y : Option (Out × List Call)) : Prop :=
  (x = none ∧ y = none) ∨ ∃ o p log, x = some (o, log) ∧ y = some (p, log) ∧ SameOut o p

theorem sameRound_descend (G : Graph) (env : Env) {a b : Fsm} (h : Same a b) (fuel c t x : Nat) (log : List Call) :
    SameRound ((descend G fuel x).map fun n => fire G env a c t n log) ((descend G fuel x).map fun n => fire G env b c t n log) := by
  rcases descend G fuel x with _ | n
  · exact Or.inl ⟨rfl, rfl⟩
  · obtain ⟨h1, h2⟩ := fire_same G env h c t n log
    refine Or.inr ⟨_, _, (fire G env a c t n log).2, rfl, ?_, h1⟩
    rw [h2]; rfl

theorem round_same (G : Graph) (env : Env) (ev fuel : Nat) {a b : Fsm} (h : Same a b) (c : Nat) (log : List Call) :
    SameRound (round G env ev fuel a c log) (round G env ev fuel b c log) := by
  unfold round
  dsimp only
  rcases (find G env ev c log).1 with _ | t
  · rcases (G.st c).parent with _ | p
    · exact Or.inr ⟨_, _, _, rfl, rfl, .done h⟩
    · exact Or.inr ⟨_, _, _, rfl, rfl, .again h⟩
  · dsimp only
    unfold take
    rw [h.2.2]
    rcases (G.tr t).next with _ | x
    · dsimp only
      split
      · split
        · exact Or.inl ⟨rfl, rfl⟩
        · split
          · exact Or.inr ⟨_, _, _, rfl, rfl, .done h⟩
          · rcases b.stack[b.stack.length - (-(G.tr t).stack).toNat]? with _ | x
            · exact Or.inl ⟨rfl, rfl⟩
            · exact sameRound_descend G env (same_stack h _) fuel c t x _
      · unfold noNext error
        rw [h.2.1]
        rcases b.error with _ | e
        · exact Or.inr ⟨_, _, _, rfl, rfl, .done (same_push h _)⟩
        · dsimp only
          split
          · exact Or.inr ⟨_, _, _, rfl, rfl, .done (same_push h _)⟩
          · exact Or.inr ⟨_, _, _, rfl, rfl, .done (same_push h _)⟩
    · exact sameRound_descend G env h fuel c t x _

/-- Results of handling an event that agree. -/
def SameResult (x y : Option (Fsm × Int × List Call)) : Prop :=
  (x = none ∧ y = none) ∨ ∃ a b code log, x = some (a, code, log) ∧ y = some (b, code, log) ∧ Same a b

theorem loop_same (G : Graph) (env : Env) (ev : Nat) : ∀ fuel {a b : Fsm}, Same a b → ∀ c log,
    SameResult (loop G env ev fuel a c log) (loop G env ev fuel b c log) := by
  intro fuel
  induction fuel with
  | zero => intro a b _ c log; exact Or.inl ⟨rfl, rfl⟩
  | succ fuel ih =>
    intro a b h c log
    rw [loop, loop]
    rcases round_same G env ev (fuel + 1) h c log with ⟨h1, h2⟩ | ⟨o, p, log', h1, h2, h3⟩
    · rw [h1, h2]; exact Or.inl ⟨rfl, rfl⟩
    · rw [h1, h2]
      cases h3 with
      | done h => exact Or.inr ⟨_, _, _, _, rfl, rfl, h⟩
      | again h => exact ih h _ _

theorem handle_same (G : Graph) (env : Env) (ev fuel : Nat) {a b : Fsm} (h : Same a b) (log : List Call) :
    SameResult (handle G env ev fuel a log) (handle G env ev fuel b log) := by
  unfold handle
  rw [h.1]
  rcases curr b with _ | c
  · exact Or.inr ⟨_, _, _, _, rfl, rfl, h⟩
  · exact loop_same G env ev fuel h c log

/-- What a user sees of a machine handling events one after the other: the return values with the current state after each, and all calls. -/
def observe (G : Graph) (env : Env) (fuel : Nat) : List Nat → Fsm → List Call → Option (List (Int × Option Nat) × List Call)
  | [], _, log => some ([], log)
  | ev :: l, m, log => match handle G env ev fuel m log with
    | none => none
    | some (m, code, log) => (observe G env fuel l m log).map fun r => ((code, curr m) :: r.1, r.2)

/-- C76: after a reset the machine handles every sequence of events as a newly initialised one: the same return values, states and calls. -/
theorem reset_fresh (G : Graph) (env : Env) (fuel : Nat) (m : Fsm) (s : Option Nat) (events : List Nat) (log : List Call) :
    observe G env fuel events (reset m s) log = observe G env fuel events (init s m.error) log := by
  have key : ∀ events {a b : Fsm}, Same a b → ∀ log, observe G env fuel events a log = observe G env fuel events b log := by
    intro events
    induction events with
    | nil => intro a b _ log; rfl
    | cons ev l ih =>
      intro a b h log
      rw [observe, observe]
      rcases handle_same G env ev fuel h log with ⟨h1, h2⟩ | ⟨a', b', code, log', h1, h2, h3⟩
      · rw [h1, h2]
      · rw [h1, h2]
        dsimp only
        rw [ih h3, h3.1]
  exact key events (show Same (reset m s) (init s m.error) from ⟨rfl, rfl, rfl⟩) log

/-- C76 fails for the previous state: reset leaves the one of before. -/
theorem reset_prev_violated : ∃ m : Fsm, prev (reset m (some 0)) = some 7 ∧ prev (init (some 0) m.error) = none :=
  ⟨⟨some 0, some 7, 1, none, []⟩, by decide, by decide⟩

/-! ### Concrete machines and violations -/

/-- States 0 (parent 3), 1, 2 (final), 3 (the parent, with exit trigger), 4 (entered at 1), 5 (offers a crossing transition), 6 (a state that
refuses entry). -/
def demo : Graph where
  st := fun s => match s with
    | 0 => ⟨true, true, false, [0, 1, 2], some 3, none⟩
    | 1 => ⟨true, true, false, [3, 7], none, none⟩
    | 2 => ⟨true, false, false, [], none, none⟩
    | 3 => ⟨false, true, false, [4], none, none⟩
    | 4 => ⟨true, true, false, [], none, some 1⟩
    | 5 => ⟨false, true, false, [5], none, none⟩
    | 6 => ⟨true, false, false, [3], none, none⟩
    | _ => ⟨false, false, false, [6], none, none⟩
  tr := fun t => match t with
    | 0 => ⟨10, true, some 1, false, 0, true⟩
    | 1 => ⟨10, false, some 2, false, 0, true⟩
    | 2 => ⟨11, false, some 1, false, 1, true⟩
    | 3 => ⟨10, false, none, false, -1, true⟩
    | 4 => ⟨12, false, some 4, false, 0, true⟩
    | 5 => ⟨13, false, some 7, true, 0, false⟩
    | 6 => ⟨13, false, some 6, false, 0, false⟩
    | _ => ⟨14, false, some 0, false, 0, false⟩

/-- Guards fail, everything else succeeds. -/
def guardsFail : Env := ⟨fun l => match l.getLast? with | some (.guard _) => -1 | _ => 0, fun _ => none, true⟩
/-- Entering state 6 and leaving state 1 fail. -/
def entryFails : Env := ⟨fun l => match l.getLast? with | some (.enter 6) => -5 | some (.exit 1) => -5 | _ => 0, fun _ => none, true⟩

-- the guard of the first transition fails, the second is taken to the final state
example : handle demo guardsFail 10 9 (init (some 0) none) [] =
    some (⟨some 0, some 2, 1, none, []⟩, 3, [.guard 0, .exit 0, .action 1 0 2, .enter 2]) := by decide
example : Dispatch demo guardsFail 10 0 [] (some (0, 1)) [.guard 0] :=
  .here (.own (.rejects rfl rfl (by decide) (.free rfl rfl)))
example : Goes demo (init (some 0) none) 1 (init (some 0) none) 2 := .named rfl (.leaf rfl)
-- pushing: no exit; then popping: no entry
example : observe demo guardsFail 9 [11, 10] (init (some 0) none) [] =
    some ([(0, some 1), (0, some 0)], [.action 2 0 1, .enter 1, .exit 1, .action 3 1 0]) := by decide
-- inherited from the parent, descending to the entry state
example : handle demo guardsFail 12 9 (init (some 0) none) [] =
    some (⟨some 0, some 1, 1, none, []⟩, 0, [.exit 3, .action 4 3 1, .enter 1]) := by decide
-- an unknown event
example : handle demo guardsFail 99 9 (init (some 0) none) [] = some (init (some 0) none, 1, []) := by decide
-- popping from the empty stack
example : handle demo guardsFail 10 9 (init (some 1) none) [] = some (init (some 1) none, -75, []) := by decide
-- a transition that leads to the error state
example : handle demo guardsFail 11 9 (init (some 0) (some 1)) [] =
    some (⟨some 0, some 1, 1, some 1, []⟩, -14, [.action 2 0 1, .enter 1]) := by decide

/-- C34 fails with crossing transitions: entering the second state fails, yet the current state has changed. -/
theorem atomic_violated : ∃ m r, curr m = some 5 ∧ handle demo entryFails 13 9 m [] = some r ∧ r.2.1 = -5 ∧ curr r.1 = some 7 :=
  ⟨init (some 5) none, _, rfl, rfl, by decide, by decide⟩

/-- C34 fails with crossing transitions: "no change" is returned although the state changed. -/
theorem nochange_violated : ∃ (G : Graph) (m : Fsm) (r : Fsm × Int × List Call),
    handle G guardsFail 13 9 m [] = some r ∧ r.2.1 = 1 ∧ curr m ≠ curr r.1 :=
  ⟨⟨fun s => if s = 0 then ⟨false, false, false, [0], none, none⟩ else ⟨false, false, false, [1], none, none⟩,
    fun t => if t = 0 then ⟨13, false, some 1, true, 0, false⟩ else ⟨14, false, some 0, false, 0, false⟩⟩,
    init (some 0) none, _, rfl, by decide, by decide⟩

/-- C34 fails for the stack: a callback fails after a pop, the current state stays and the popped state is lost. -/
theorem stack_atomic_violated : ∃ m r, m.stack = [0] ∧ handle demo entryFails 10 9 m [] = some r ∧ r.2.1 = -5 ∧ curr r.1 = curr m ∧ r.1.stack = [] :=
  ⟨⟨some 1, none, 0, none, [0]⟩, _, rfl, rfl, by decide, by decide, by decide⟩

/-- A transition inherited from an ancestor leaves the ancestor, not the current state: state 0 has an exit trigger that is not called. -/
theorem inherited_exit_violated : ∃ r, (demo.st 0).exit = true ∧ handle demo guardsFail 12 9 (init (some 0) none) [] = some r ∧
    curr r.1 = some 1 ∧ Call.exit 0 ∉ r.2.2 :=
  ⟨_, rfl, rfl, by decide, by decide⟩

end Bfdev.Fsm

import Verif.Fsm.Props
/-!
C34: an event from its delivery to the return of `bfdev_fsm_handle` (src/fsm.c:56-178), crossing transitions included, against an abstract machine of which only the current and
previous state, the error state and the stack can be seen.
-/
namespace Bfdev.Fsm.Whole

/-! ## Specification -/

/-- What can be seen of a machine. -/
structure View where
  curr : Option Nat
  prev : Option Nat
  error : Option Nat
  stack : List Nat
deriving DecidableEq, Repr

def view (m : Fsm) : View := ⟨curr m, prev m, m.error, m.stack⟩

/-- Transition `t` leads to state `n`: the one it names, or the lowest of those it takes off the stack, which becomes `rest`; and from there down to the entry states. -/
inductive Leads (G : Graph) (t : Nat) : List Nat → List Nat → Nat → Prop
  | named {stack x n} : (G.tr t).next = some x → Descends G x n → Leads G t stack stack n
  | popped {rest x more n} : (G.tr t).next = none → (G.tr t).stack = -((more.length + 1 : Nat) : Int) → more.length + 1 < 2 ^ 31 → Descends G x n →
      Leads G t (rest ++ x :: more) rest n

/-- The return value after the callbacks of a transition from `s` to `n`: -14 for the error state, 2 for a state that stays, 3 for a final state, -12 without memory for the stack,
and 0. -/
def verdict (G : Graph) (env : Env) (error : Option Nat) (s t n : Nat) : Int :=
  if error = some n then -14
  else if s = n then 2
  else if (G.st n).trans = [] ∧ (G.st n).exception = false then 3
  else if 0 < (G.tr t).stack ∧ env.grant = false then -12
  else 0

/-- The machine after a transition from `s` to `n`; `s` is pushed if the transition says so and nothing speaks against it. -/
def entered (G : Graph) (env : Env) (v : View) (rest : List Nat) (s t n : Nat) : View :=
  ⟨some n, v.curr, v.error, if verdict G env v.error s t n = 0 ∧ 0 < (G.tr t).stack then rest ++ [s] else rest⟩

/-- The entry function of the error state. -/
def errorCall (G : Graph) : Option Nat → List Call
  | none => []
  | some e => if (G.st e).enter = true then [.enter e] else []

/-- `Delivers v c log v' code log'`: an event given to state `c` of a machine seen as `v`, after the calls `log`, leaves the machine `v'`, returns `code` and
has made the calls `log'`.
* no state from `c` upwards offers a transition: nothing changes, 1;
* the transition takes more off the stack than there is: nothing changes, -75;
* it leads nowhere: the error state is entered, -2 or what its entry function says;
* one of its callbacks fails: its value, and only the stack may have changed;
* it is done and does not cross, or says something other than 0: the new state and the verdict;
* it is done and crosses: the event goes to the new state. -/
inductive Delivers (G : Graph) (env : Env) (ev : Nat) : View → Nat → List Call → View → Int → List Call → Prop
  | unmatched {v c log log'} : Dispatch G env ev c log none log' → Delivers G env ev v c log v 1 log'
  | underflow {v c log s t log'} : Dispatch G env ev c log (some (s, t)) log' → (G.tr t).next = none → (v.stack.length : Int) < -(G.tr t).stack → -2 ^ 31 < (G.tr t).stack →
      Delivers G env ev v c log v (-75) log'
  | lost {v c log s t log'} : Dispatch G env ev c log (some (s, t)) log' → (G.tr t).next = none → 0 ≤ (G.tr t).stack →
      Delivers G env ev v c log ⟨v.error, v.curr, v.error, v.stack⟩ (if (runAll env (errorCall G v.error) log').1 ≠ 0 then (runAll env (errorCall G v.error) log').1 else -2)
        (runAll env (errorCall G v.error) log').2
  | fails {v c log s t log' rest n} : Dispatch G env ev c log (some (s, t)) log' → Leads G t v.stack rest n → (runAll env (callbacks G s t n) log').1 ≠ 0 →
      Delivers G env ev v c log { v with stack := rest } (runAll env (callbacks G s t n) log').1 (runAll env (callbacks G s t n) log').2
  | arrives {v c log s t log' rest n} : Dispatch G env ev c log (some (s, t)) log' → Leads G t v.stack rest n → (runAll env (callbacks G s t n) log').1 = 0 →
      (G.tr t).cross = false ∨ verdict G env v.error s t n ≠ 0 →
      Delivers G env ev v c log (entered G env v rest s t n) (verdict G env v.error s t n) (runAll env (callbacks G s t n) log').2
  | crosses {v c log s t log' rest n v' code log''} : Dispatch G env ev c log (some (s, t)) log' → Leads G t v.stack rest n → (runAll env (callbacks G s t n) log').1 = 0 →
      (G.tr t).cross = true → verdict G env v.error s t n = 0 →
      Delivers G env ev (entered G env v rest s t n) n (runAll env (callbacks G s t n) log').2 v' code log'' → Delivers G env ev v c log v' code log''

/-- An event for the machine: it goes to the current state; without one it is refused with -22. -/
def Handles (G : Graph) (env : Env) (ev : Nat) (v : View) (log : List Call) (v' : View) (code : Int) (log' : List Call) : Prop :=
  match v.curr with
  | none => v' = v ∧ code = -22 ∧ log' = log
  | some c => Delivers G env ev v c log v' code log'

/-! ## Proofs -/

theorem outcome_verdict (G : Graph) (env : Env) (m : Fsm) (s t n : Nat) : outcome G env m s t n = verdict G env m.error s t n := rfl

theorem goes_of_leads {G : Graph} {m : Fsm} {t n : Nat} {rest : List Nat} (h : Leads G t m.stack rest n) : Goes G m t { m with stack := rest } n := by
  generalize hs : m.stack = st at h
  cases h with
  | named h1 h2 => rw [← hs]; exact .named h1 h2
  | popped h1 h2 h3 h4 => exact .popped h1 h2 h3 hs h4

theorem leads_of_goes {G : Graph} {m m' : Fsm} {t n : Nat} (h : Goes G m t m' n) : ∃ rest, m' = { m with stack := rest } ∧ Leads G t m.stack rest n := by
  cases h with
  | named h1 h2 => exact ⟨m.stack, rfl, .named h1 h2⟩
  | @popped rest x more _ h1 h2 h3 h4 h5 => exact ⟨rest, rfl, by rw [h4]; exact .popped h1 h2 h3 h5⟩

theorem view_entered {G : Graph} {env : Env} {m m' : Fsm} {rest : List Nat} {s t n : Nat} (h : Entered G env m { m with stack := rest } m' s t n) :
    view m' = entered G env (view m) rest s t n := by
  obtain ⟨h1, h2, h3, h4⟩ := h
  unfold view entered
  rw [h1, h2, h3, h4]
  rfl

theorem view_stack (m : Fsm) (rest : List Nat) : view { m with stack := rest } = { view m with stack := rest } := by
  simp only [view, curr, prev]

theorem error_eq (G : Graph) (env : Env) (m : Fsm) (log : List Call) :
    error G env m log = (pushState m m.error, (runAll env (errorCall G m.error) log).1, (runAll env (errorCall G m.error) log).2) := by
  unfold error
  rcases he : m.error with _ | e
  · rfl
  · dsimp only [errorCall]
    by_cases h : (G.st e).enter = true
    · simp only [if_pos h, call, runAll]
      by_cases h0 : env.ret (log ++ [.enter e]) = 0
      · simp [h0]
      · simp [h0]
    · simp only [if_neg h]
      simp [runAll]

theorem sound {G : Graph} {env : Env} {ev c : Nat} {v v' : View} {log log' : List Call} {code : Int} (h : Delivers G env ev v c log v' code log') :
    ∀ m, view m = v → ∃ m' k, view m' = v' ∧ ∀ fuel, k ≤ fuel → loop G env ev fuel m c log = some (m', code, log') := by
  induction h with
  | @unmatched v c log log' hd =>
    intro m hv
    obtain ⟨k, c', log1, e, -, h⟩ := loop_dispatch hd m
    obtain ⟨h1, h2⟩ := h rfl
    refine ⟨m, k + 1, hv, fun fuel hf => ?_⟩
    obtain ⟨f, rfl⟩ : ∃ f, fuel = f + 1 + k := ⟨fuel - k - 1, by omega⟩
    rw [e, loop]
    unfold round
    rw [find_of_offers h1]
    dsimp only
    rw [h2]
  | @underflow v c log s t log' hd hn h1 h2 =>
    intro m hv
    subst hv
    obtain ⟨k, c', log1, e, h, -⟩ := loop_dispatch hd m
    obtain ⟨rfl, ho⟩ := h s t rfl
    refine ⟨m, k + 1, rfl, fun fuel hf => ?_⟩
    obtain ⟨f, rfl⟩ : ∃ f, fuel = f + 1 + k := ⟨fuel - k - 1, by omega⟩
    rw [e, loop]
    unfold round
    rw [find_of_offers ho]
    dsimp only
    unfold take
    rw [hn]
    dsimp only
    have h1' : (m.stack.length : Int) < -(G.tr t).stack := h1
    rw [if_pos (by omega), if_neg (by omega), if_pos (by omega)]
  | @lost v c log s t log' hd hn h1 =>
    intro m hv
    subst hv
    obtain ⟨k, c', log1, e, h, -⟩ := loop_dispatch hd m
    obtain ⟨rfl, ho⟩ := h s t rfl
    refine ⟨pushState m m.error, k + 1, ?_, fun fuel hf => ?_⟩
    · unfold view
      rw [curr_push, prev_push, push_error, push_stack]
    · obtain ⟨f, rfl⟩ : ∃ f, fuel = f + 1 + k := ⟨fuel - k - 1, by omega⟩
      rw [e, loop]
      unfold round
      rw [find_of_offers ho]
      dsimp only
      unfold take
      rw [hn]
      dsimp only
      rw [if_neg (by omega)]
      unfold noNext
      rw [error_eq]
      rfl
  | @fails v c log s t log' rest n hd hl h0 =>
    intro m hv
    subst hv
    obtain ⟨k, c', log1, e, h, -⟩ := loop_dispatch hd m
    obtain ⟨rfl, ho⟩ := h s t rfl
    obtain ⟨k2, hk2⟩ := take_of_goes (env := env) (goes_of_leads hl) c' log'
    refine ⟨{ m with stack := rest }, k + 1 + k2, view_stack m rest, fun fuel hf => ?_⟩
    obtain ⟨f, rfl⟩ : ∃ f, fuel = f + 1 + k := ⟨fuel - k - 1, by omega⟩
    rw [e, loop]
    unfold round
    rw [find_of_offers ho]
    dsimp only
    rw [hk2 _ (by omega), fire_eq, if_pos h0]
  | @arrives v c log s t log' rest n hd hl h0 hx =>
    intro m hv
    subst hv
    obtain ⟨k, c', log1, e, h, -⟩ := loop_dispatch hd m
    obtain ⟨rfl, ho⟩ := h s t rfl
    obtain ⟨k2, hk2⟩ := take_of_goes (env := env) (goes_of_leads hl) c' log'
    obtain ⟨m'', a1, a2⟩ := arrive_done (G := G) (env := env) (m := m) (m' := { m with stack := rest }) (s := c') (t := t) (n := n) rfl rfl hx
    refine ⟨m'', k + 1 + k2, view_entered a2, fun fuel hf => ?_⟩
    obtain ⟨f, rfl⟩ : ∃ f, fuel = f + 1 + k := ⟨fuel - k - 1, by omega⟩
    rw [e, loop]
    unfold round
    rw [find_of_offers ho]
    dsimp only
    rw [hk2 _ (by omega), fire_eq, if_neg (by simp [h0]), a1]
    rfl
  | @crosses v c log s t log' rest n v' code log'' hd hl h0 hx ho' _ ih =>
    intro m hv
    subst hv
    obtain ⟨k, c', log1, e, h, -⟩ := loop_dispatch hd m
    obtain ⟨rfl, ho⟩ := h s t rfl
    obtain ⟨k2, hk2⟩ := take_of_goes (env := env) (goes_of_leads hl) c' log'
    obtain ⟨m'', a1, a2⟩ := arrive_again (G := G) (env := env) (m := m) (m' := { m with stack := rest }) (s := c') (t := t) (n := n) rfl rfl hx ho'
    obtain ⟨m', k3, hv', hk3⟩ := ih m'' (view_entered a2)
    refine ⟨m', k + 1 + k2 + k3, hv', fun fuel hf => ?_⟩
    obtain ⟨f, rfl⟩ : ∃ f, fuel = f + 1 + k := ⟨fuel - k - 1, by omega⟩
    rw [e, loop]
    unfold round
    rw [find_of_offers ho]
    dsimp only
    rw [hk2 _ (by omega), fire_eq, if_neg (by simp [h0]), a1]
    exact hk3 f (by omega)

theorem descends_of {G : Graph} : ∀ {fuel x n : Nat}, descend G fuel x = some n → Descends G x n
  | 0, x, n, h => by simp [descend] at h
  | fuel + 1, x, n, h => by
    rw [descend] at h
    rcases he : (G.st x).entry with _ | e
    · rw [he] at h; simp at h; subst h; exact .leaf he
    · rw [he] at h; exact .down he (descends_of h)

theorem Delivers.up {G : Graph} {env : Env} {ev c p : Nat} {v v' : View} {log log1 log' : List Call} {code : Int} (ho : Offers G env ev c log none log1)
    (hp : (G.st c).parent = some p) (h : Delivers G env ev v p log1 v' code log') : Delivers G env ev v c log v' code log' := by
  cases h with
  | unmatched hd => exact .unmatched (.up ho hp hd)
  | underflow hd a b c => exact .underflow (.up ho hp hd) a b c
  | lost hd a b => exact .lost (.up ho hp hd) a b
  | fails hd a b => exact .fails (.up ho hp hd) a b
  | arrives hd a b c => exact .arrives (.up ho hp hd) a b c
  | crosses hd a b c d e => exact .crosses (.up ho hp hd) a b c d e

theorem complete {G : Graph} {env : Env} {ev : Nat} : ∀ (fuel : Nat) {c : Nat} {m m' : Fsm} {log log' : List Call} {code : Int},
    loop G env ev fuel m c log = some (m', code, log') → Delivers G env ev (view m) c log (view m') code log'
  | 0, c, m, m', log, log', code, h => by simp [loop] at h
  | fuel + 1, c, m, m', log, log', code, h => by
    obtain ⟨r, log1, ho⟩ := offers_total G env ev c log
    rw [loop] at h
    unfold round at h
    rw [find_of_offers ho] at h
    dsimp only at h
    rcases r with _ | t
    · rcases hp : (G.st c).parent with _ | p
      · rw [hp] at h
        simp at h
        obtain ⟨rfl, rfl, rfl⟩ := h
        exact .unmatched (.top ho hp)
      · rw [hp] at h
        exact Delivers.up ho hp (complete fuel h)
    · have hd : Dispatch G env ev c log (some (c, t)) log1 := .here ho
      dsimp only at h
      have fin : ∀ rest n, Leads G t m.stack rest n → take G env (fuel + 1) m c t log1 = some (fire G env { m with stack := rest } c t n log1) →
          Delivers G env ev (view m) c log (view m') code log' := by
        intro rest n hl e
        rw [e, fire_eq] at h
        by_cases h0 : (runAll env (callbacks G c t n) log1).1 = 0
        · rw [if_neg (by simp [h0])] at h
          by_cases hx : (G.tr t).cross = false ∨ outcome G env m c t n ≠ 0
          · obtain ⟨m'', a1, a2⟩ := arrive_done (G := G) (env := env) (m := m) (m' := { m with stack := rest }) (s := c) (t := t) (n := n) rfl rfl hx
            rw [a1] at h
            simp at h
            obtain ⟨rfl, rfl, rfl⟩ := h
            rw [view_entered a2]
            exact .arrives hd hl h0 hx
          · have hx1 : (G.tr t).cross = true := by
              cases hcr : (G.tr t).cross with
              | true => rfl
              | false => exact absurd (Or.inl hcr) hx
            have hx2 : outcome G env m c t n = 0 := by
              by_cases hz : outcome G env m c t n = 0
              · exact hz
              · exact absurd (Or.inr hz) hx
            obtain ⟨m'', a1, a2⟩ := arrive_again (G := G) (env := env) (m := m) (m' := { m with stack := rest }) (s := c) (t := t) (n := n) rfl rfl hx1 hx2
            rw [a1] at h
            have ih := complete fuel h
            rw [view_entered a2] at ih
            exact .crosses hd hl h0 hx1 hx2 ih
        · rw [if_pos h0] at h
          simp at h
          obtain ⟨rfl, rfl, rfl⟩ := h
          have hl' : Leads G t (view m).stack rest n := hl
          have key := Delivers.fails (v := view m) hd hl' h0
          rw [← view_stack] at key
          exact key
      rcases hn : (G.tr t).next with _ | x
      · by_cases h1 : (G.tr t).stack < 0
        · by_cases h2 : (G.tr t).stack ≤ -2 ^ 31
          · unfold take at h
            rw [hn] at h
            dsimp only at h
            rw [if_pos h1, if_pos h2] at h
            simp at h
          · by_cases h3 : m.stack.length < (-(G.tr t).stack).toNat
            · unfold take at h
              rw [hn] at h
              dsimp only at h
              rw [if_pos h1, if_neg h2, if_pos h3] at h
              simp at h
              obtain ⟨rfl, rfl, rfl⟩ := h
              exact Delivers.underflow (v := view m) hd hn (by show (m.stack.length : Int) < _; omega) (by omega)
            · have hlt : m.stack.length - (-(G.tr t).stack).toNat < m.stack.length := by omega
              rcases hde : descend G (fuel + 1) (m.stack[m.stack.length - (-(G.tr t).stack).toNat]) with _ | n
              · unfold take at h
                rw [hn] at h
                dsimp only at h
                rw [if_pos h1, if_neg h2, if_neg h3, List.getElem?_eq_getElem hlt] at h
                dsimp only at h
                rw [hde] at h
                simp at h
              · refine fin (m.stack.take (m.stack.length - (-(G.tr t).stack).toNat)) n ?_ ?_
                · have e : m.stack = m.stack.take (m.stack.length - (-(G.tr t).stack).toNat) ++
                      m.stack[m.stack.length - (-(G.tr t).stack).toNat] :: m.stack.drop (m.stack.length - (-(G.tr t).stack).toNat + 1) := by
                    rw [List.getElem_cons_drop, List.take_append_drop]
                  have hl : (m.stack.drop (m.stack.length - (-(G.tr t).stack).toNat + 1)).length + 1 = (-(G.tr t).stack).toNat := by
                    rw [List.length_drop]; omega
                  have key := Leads.popped (G := G) (t := t) (rest := m.stack.take (m.stack.length - (-(G.tr t).stack).toNat))
                    (more := m.stack.drop (m.stack.length - (-(G.tr t).stack).toNat + 1)) hn (by rw [hl]; omega) (by rw [hl]; omega) (descends_of hde)
                  rw [← e] at key
                  exact key
                · unfold take
                  rw [hn]
                  dsimp only
                  rw [if_pos h1, if_neg h2, if_neg h3, List.getElem?_eq_getElem hlt]
                  dsimp only
                  rw [hde]
                  rfl
        · unfold take at h
          rw [hn] at h
          dsimp only at h
          rw [if_neg h1] at h
          unfold noNext at h
          rw [error_eq] at h
          simp only [Option.some.injEq, Prod.mk.injEq] at h
          obtain ⟨rfl, rfl, rfl⟩ := h
          have hv : view (pushState m m.error) = ⟨(view m).error, (view m).curr, (view m).error, (view m).stack⟩ := by
            unfold view
            rw [curr_push, prev_push, push_error, push_stack]
          rw [hv]
          exact Delivers.lost (v := view m) hd hn (by omega)
      · rcases hde : descend G (fuel + 1) x with _ | n
        · unfold take at h
          rw [hn] at h
          dsimp only at h
          rw [hde] at h
          simp at h
        · refine fin m.stack n (.named hn (descends_of hde)) ?_
          unfold take
          rw [hn]
          dsimp only
          rw [hde]
          rfl

/-- **C34.** Complete description of an event, crossing transitions, failing callbacks, stack underflow and missing targets included: the machine handles it in a given way exactly
if the abstract machine does. In particular at most one outcome is possible, and the event is handled without end or undefined exactly if the abstract machine has no outcome. -/
theorem handle_iff (G : Graph) (env : Env) (ev : Nat) (m : Fsm) (log : List Call) (v' : View) (code : Int) (log' : List Call) :
    Handles G env ev (view m) log v' code log' ↔ ∃ m' k, view m' = v' ∧ ∀ fuel, k ≤ fuel → handle G env ev fuel m log = some (m', code, log') := by
  unfold Handles handle
  show (match curr m with
    | none => v' = view m ∧ code = -22 ∧ log' = log
    | some c => Delivers G env ev (view m) c log v' code log') ↔ _
  rcases hc : curr m with _ | c
  · dsimp only
    constructor
    · rintro ⟨rfl, rfl, rfl⟩
      exact ⟨m, 0, rfl, fun _ _ => rfl⟩
    · rintro ⟨m', k, hv, h⟩
      have := h k (Nat.le_refl _)
      simp only [Option.some.injEq, Prod.mk.injEq] at this
      obtain ⟨rfl, rfl, rfl⟩ := this
      exact ⟨hv.symm, rfl, rfl⟩
  · dsimp only
    constructor
    · intro h; exact sound h m rfl
    · rintro ⟨m', k, hv, h⟩
      rw [← hv]
      exact complete k (h k (Nat.le_refl _))

/-- Whatever fuel the loop ended with, that is the outcome. -/
theorem handle_some {G : Graph} {env : Env} {ev fuel : Nat} {m m' : Fsm} {log log' : List Call} {code : Int} (h : handle G env ev fuel m log = some (m', code, log')) :
    Handles G env ev (view m) log (view m') code log' := by
  unfold handle at h
  unfold Handles
  show (match curr m with
    | none => view m' = view m ∧ code = -22 ∧ log' = log
    | some c => Delivers G env ev (view m) c log (view m') code log')
  rcases hc : curr m with _ | c
  · rw [hc] at h
    simp at h
    obtain ⟨rfl, rfl, rfl⟩ := h
    exact ⟨rfl, rfl, rfl⟩
  · rw [hc] at h
    exact complete fuel h

theorem leads_total {G : Graph} (re : Nat → Nat) (he : ∀ s e, (G.st s).entry = some e → re e < re s) (t : Nat) (stack : List Nat) (hs : -2 ^ 31 < (G.tr t).stack) :
    (∃ rest n, Leads G t stack rest n) ∨ (G.tr t).next = none ∧ ((stack.length : Int) < -(G.tr t).stack ∨ 0 ≤ (G.tr t).stack) := by
  rcases hn : (G.tr t).next with _ | x
  · by_cases h1 : 0 ≤ (G.tr t).stack
    · exact .inr ⟨rfl, .inr h1⟩
    · by_cases h2 : (stack.length : Int) < -(G.tr t).stack
      · exact .inr ⟨rfl, .inl h2⟩
      · have hlt : stack.length - (-(G.tr t).stack).toNat < stack.length := by omega
        obtain ⟨n, hde⟩ := descends_total G re he (stack[stack.length - (-(G.tr t).stack).toNat])
        have e : stack = stack.take (stack.length - (-(G.tr t).stack).toNat) ++
            stack[stack.length - (-(G.tr t).stack).toNat] :: stack.drop (stack.length - (-(G.tr t).stack).toNat + 1) := by
          rw [List.getElem_cons_drop, List.take_append_drop]
        have hl : (stack.drop (stack.length - (-(G.tr t).stack).toNat + 1)).length + 1 = (-(G.tr t).stack).toNat := by
          rw [List.length_drop]; omega
        have key := Leads.popped (G := G) (t := t) (rest := stack.take (stack.length - (-(G.tr t).stack).toNat))
          (more := stack.drop (stack.length - (-(G.tr t).stack).toNat + 1)) hn (by rw [hl]; omega) (by rw [hl]; omega) hde
        rw [← e] at key
        exact .inl ⟨_, _, key⟩
  · obtain ⟨n, hde⟩ := descends_total G re he x
    exact .inl ⟨stack, n, .named hn hde⟩

/-- **C34.** Every event is handled if neither ancestors, nor entry states, nor crossing transitions form a cycle. -/
theorem handle_ends (G : Graph) (env : Env) (ev : Nat) (rp re rx : Nat → Nat) (hp : ∀ s p, (G.st s).parent = some p → rp p < rp s)
    (he : ∀ s e, (G.st s).entry = some e → re e < re s) (hs : ∀ t, -2 ^ 31 < (G.tr t).stack)
    (hx : ∀ c log s t log' stack rest n, Dispatch G env ev c log (some (s, t)) log' → (G.tr t).cross = true → Leads G t stack rest n → rx n < rx c)
    (m : Fsm) (log : List Call) : ∃ r k, ∀ fuel, k ≤ fuel → handle G env ev fuel m log = some r := by
  have key : ∀ k c v log, rx c < k → ∃ v' code log', Delivers G env ev v c log v' code log' := by
    intro k
    induction k with
    | zero => intro c v log h; omega
    | succ k ih =>
      intro c v log h
      obtain ⟨r, log', hd⟩ := dispatch_total G env ev rp hp c log
      rcases r with _ | ⟨s, t⟩
      · exact ⟨_, _, _, .unmatched hd⟩
      · rcases leads_total re he t v.stack (hs t) with ⟨rest, n, hl⟩ | ⟨hn, h1 | h1⟩
        · by_cases h0 : (runAll env (callbacks G s t n) log').1 = 0
          · by_cases hc : (G.tr t).cross = false ∨ verdict G env v.error s t n ≠ 0
            · exact ⟨_, _, _, .arrives hd hl h0 hc⟩
            · have hx1 : (G.tr t).cross = true := by
                cases hcr : (G.tr t).cross with
                | true => rfl
                | false => exact absurd (Or.inl hcr) hc
              have hx2 : verdict G env v.error s t n = 0 := by
                by_cases hz : verdict G env v.error s t n = 0
                · exact hz
                · exact absurd (Or.inr hz) hc
              obtain ⟨v', code, l, hr⟩ := ih n (entered G env v rest s t n) (runAll env (callbacks G s t n) log').2
                (by have := hx c log s t log' v.stack rest n hd hx1 hl; omega)
              exact ⟨_, _, _, .crosses hd hl h0 hx1 hx2 hr⟩
          · exact ⟨_, _, _, .fails hd hl h0⟩
        · exact ⟨_, _, _, .underflow hd hn h1 (hs t)⟩
        · exact ⟨_, _, _, .lost hd hn h1⟩
  rcases hc : curr m with _ | c
  · exact ⟨_, 0, fun fuel _ => handle_invalid G env ev fuel m log hc⟩
  · obtain ⟨v', code, log', h⟩ := key _ c (view m) log (Nat.lt_succ_self _)
    obtain ⟨m', k, -, hk⟩ := sound h m rfl
    refine ⟨(m', code, log'), k, fun fuel hf => ?_⟩
    unfold handle
    rw [hc]
    exact hk fuel hf

/-! ## What follows -/

theorem runAll_extends (env : Env) : ∀ (l log : List Call), ∃ d, (runAll env l log).2 = log ++ d ∧ d <+: l
  | [], log => ⟨[], by simp [runAll], List.nil_prefix⟩
  | c :: l, log => by
    unfold runAll
    split
    · exact ⟨[c], rfl, by simp⟩
    · obtain ⟨d, h1, h2⟩ := runAll_extends env l (log ++ [c])
      exact ⟨c :: d, by rw [h1]; simp, by simpa using h2⟩

/-- The states an event can leave a machine in: where it was, its error state, or one a transition leads to; the error state never changes. -/
theorem delivers_state {G : Graph} {env : Env} {ev c : Nat} {v v' : View} {log log' : List Call} {code : Int} (h : Delivers G env ev v c log v' code log') :
    v'.error = v.error ∧ (v'.curr = v.curr ∨ v'.curr = v.error ∨ ∃ t stack rest n, Leads G t stack rest n ∧ v'.curr = some n) := by
  induction h with
  | unmatched => exact ⟨rfl, .inl rfl⟩
  | underflow => exact ⟨rfl, .inl rfl⟩
  | lost => exact ⟨rfl, .inr (.inl rfl)⟩
  | fails => exact ⟨rfl, .inl rfl⟩
  | arrives _ hl => exact ⟨rfl, .inr (.inr ⟨_, _, _, _, hl, rfl⟩)⟩
  | crosses _ hl _ _ _ _ ih =>
    obtain ⟨h1, h2⟩ := ih
    refine ⟨h1, ?_⟩
    rcases h2 with h2 | h2 | h2
    · exact .inr (.inr ⟨_, _, _, _, hl, h2⟩)
    · exact .inr (.inl h2)
    · exact .inr (.inr h2)

/-- A return value that says nothing changed, 1, without crossing, is the truth: the machine is as before. With crossing it is not, see `nochange_violated`. -/
theorem delivers_unchanged_partial {G : Graph} {env : Env} {ev c : Nat} {v v' : View} {log log' : List Call} {code : Int} (h : Delivers G env ev v c log v' code log')
    (hx : ∀ t, (G.tr t).cross = false) (hr : ∀ l, env.ret l ≠ 1) (hc : code = 1) : v' = v := by
  have hrun : ∀ l log, (runAll env l log).1 ≠ 1 := by
    intro l
    induction l with
    | nil => intro log; simp [runAll]
    | cons a l ih =>
      intro log
      unfold runAll
      split
      · exact hr _
      · exact ih _
  cases h with
  | unmatched => rfl
  | underflow => rfl
  | lost =>
    split at hc
    · exact absurd hc (hrun _ _)
    · omega
  | fails => exact absurd hc (hrun _ _)
  | @arrives _ _ _ s t _ _ n _ _ _ _ =>
    exfalso
    unfold verdict at hc
    repeat' split at hc
    all_goals omega
  | crosses _ _ _ h => rw [hx] at h; cases h

-- a crossing transition: the event takes the machine from state 5 through 7 on to 6
example : Handles demo guardsFail 13 ⟨some 5, none, none, []⟩ [] ⟨some 6, some 7, none, []⟩ 0 [.exit 5, .enter 6] :=
  @Delivers.crosses demo guardsFail 13 ⟨some 5, none, none, []⟩ 5 [] 5 5 [] [] 7 _ _ _ (.here (.own (.free rfl rfl))) (.named rfl (.leaf rfl)) (by decide) rfl (by decide)
    (@Delivers.arrives demo guardsFail 13 ⟨some 7, some 5, none, []⟩ 7 [.exit 5] 7 6 [.exit 5] [] 6 (.here (.own (.free rfl rfl))) (.named rfl (.leaf rfl)) (by decide) (.inl rfl))
example : (handle demo guardsFail 13 9 (init (some 5) none) []).map (fun r => (view r.1, r.2)) = some (⟨some 6, some 7, none, []⟩, 0, [.exit 5, .enter 6]) := by decide

end Bfdev.Fsm.Whole

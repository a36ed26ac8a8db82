import Verif.Fsm.Model
/-! What delivering an event means. -/
namespace Bfdev.Fsm

/-- `Picks l log r log'`: trying the transitions `l` in order gives `r`, the first of the event's type that is unguarded or whose guard
returns zero; the guards on the way are called once each, in order. -/
inductive Picks (G : Graph) (env : Env) (ev : Nat) : List Nat → List Call → Option Nat → List Call → Prop
  | nil (log) : Picks G env ev [] log none log
  | other {t l log r log'} : (G.tr t).type ≠ ev → Picks G env ev l log r log' → Picks G env ev (t :: l) log r log'
  | free {t l log} : (G.tr t).type = ev → (G.tr t).guard = false → Picks G env ev (t :: l) log (some t) log
  | holds {t l log} : (G.tr t).type = ev → (G.tr t).guard = true → env.ret (log ++ [.guard t]) = 0 →
      Picks G env ev (t :: l) log (some t) (log ++ [.guard t])
  | rejects {t l log r log'} : (G.tr t).type = ev → (G.tr t).guard = true → env.ret (log ++ [.guard t]) ≠ 0 →
      Picks G env ev l (log ++ [.guard t]) r log' → Picks G env ev (t :: l) log r log'

/-- `Offers s log r log'`: state `s` offers the transition `r`: one of its own, else the one its exception handler names. -/
inductive Offers (G : Graph) (env : Env) (ev : Nat) (s : Nat) (log : List Call) : Option Nat → List Call → Prop
  | own {t log'} : Picks G env ev (G.st s).trans log (some t) log' → Offers G env ev s log (some t) log'
  | handler {log'} : Picks G env ev (G.st s).trans log none log' → (G.st s).exception = true →
      Offers G env ev s log (env.jump (log' ++ [.exception s])) (log' ++ [.exception s])
  | nothing {log'} : Picks G env ev (G.st s).trans log none log' → (G.st s).exception = false → Offers G env ev s log none log'

/-- `Dispatch c log r log'`: `r` is the transition offered by `c` or its nearest ancestor that offers one, with that state. -/
inductive Dispatch (G : Graph) (env : Env) (ev : Nat) : Nat → List Call → Option (Nat × Nat) → List Call → Prop
  | here {c log t log'} : Offers G env ev c log (some t) log' → Dispatch G env ev c log (some (c, t)) log'
  | up {c p log log1 r log'} : Offers G env ev c log none log1 → (G.st c).parent = some p → Dispatch G env ev p log1 r log' →
      Dispatch G env ev c log r log'
  | top {c log log'} : Offers G env ev c log none log' → (G.st c).parent = none → Dispatch G env ev c log none log'

/-- The state reached from `x` by following entry states to the end. -/
inductive Descends (G : Graph) : Nat → Nat → Prop
  | leaf {x} : (G.st x).entry = none → Descends G x x
  | down {x e n} : (G.st x).entry = some e → Descends G e n → Descends G x n

/-- `Goes m t m' n`: transition `t` leads to state `n`, leaving `m'` when it has taken states off the stack. -/
inductive Goes (G : Graph) (m : Fsm) (t : Nat) : Fsm → Nat → Prop
  | named {x n} : (G.tr t).next = some x → Descends G x n → Goes G m t m n
  | popped {rest x more n} : (G.tr t).next = none → (G.tr t).stack = -((more.length + 1 : Nat) : Int) → more.length + 1 < 2 ^ 31 →
      m.stack = rest ++ x :: more → Descends G x n → Goes G m t { m with stack := rest } n

/-- The callbacks of transition `t` from `s` to `n`: leave `s`, act, enter `n`; no exit when `s` is pushed, no entry when `n` is popped, and
neither when the state stays. -/
def callbacks (G : Graph) (s t n : Nat) : List Call :=
  (if s ≠ n ∧ (G.tr t).stack ≤ 0 ∧ (G.st s).exit = true then [.exit s] else []) ++
  (if (G.tr t).action = true then [.action t s n] else []) ++
  (if s ≠ n ∧ 0 ≤ (G.tr t).stack ∧ (G.st n).enter = true then [.enter n] else [])

/-- Call the functions in order until one returns something other than zero. -/
def runAll (env : Env) : List Call → List Call → Int × List Call
  | [], log => (0, log)
  | c :: l, log => if env.ret (log ++ [c]) ≠ 0 then (env.ret (log ++ [c]), log ++ [c]) else runAll env l (log ++ [c])

/-- The return value after a transition from `s` to `n`: fault, self loop, finish, no memory, changed. -/
def outcome (G : Graph) (env : Env) (m : Fsm) (s t n : Nat) : Int :=
  if m.error = some n then -14
  else if s = n then 2
  else if (G.st n).trans = [] ∧ (G.st n).exception = false then 3
  else if 0 < (G.tr t).stack ∧ env.grant = false then -12
  else 0

/-- `n` is entered by the machine `m`, which had become `m'`. -/
def Entered (G : Graph) (env : Env) (m m' m'' : Fsm) (s t n : Nat) : Prop :=
  curr m'' = some n ∧ prev m'' = curr m ∧ m''.error = m.error ∧
    m''.stack = if outcome G env m s t n = 0 ∧ 0 < (G.tr t).stack then m'.stack ++ [s] else m'.stack

end Bfdev.Fsm

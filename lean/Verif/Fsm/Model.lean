/-!
Model of `src/fsm.c` and `include/bfdev/fsm.h`: the hierarchical state machine.

States and transitions are named by numbers; a graph gives their records. The user's callbacks are arbitrary: what a callback returns is a
function of the whole sequence of callbacks so far, itself last (`Env`). Callbacks do not call the machine they are called from. `none` is
undefined behaviour or a loop that does not end within the fuel.
-/
namespace Bfdev.Fsm

/-- `bfdev_fsm_transition_t`, fsm.h:46-57: event type, whether there is a guard, next state, crossing, stack operation, whether there is an
action. -/
structure Trans where
  type : Nat
  guard : Bool
  next : Option Nat
  cross : Bool
  stack : Int
  action : Bool
deriving DecidableEq, Repr

/-- `bfdev_fsm_state_t`, fsm.h:59-70: which triggers exist, the transitions in order, parent and entry state. -/
structure State where
  enter : Bool
  exit : Bool
  exception : Bool
  trans : List Nat
  parent : Option Nat
  entry : Option Nat
deriving DecidableEq, Repr

/-- The user's tables. -/
structure Graph where
  st : Nat → State
  tr : Nat → Trans

/-- A call of a user function: a guard of a transition, the exception handler of a state, an exit trigger, the action of a transition with the
data of the two states, an enter trigger. -/
inductive Call where
  | guard (t : Nat)
  | exception (s : Nat)
  | exit (s : Nat)
  | action (t s n : Nat)
  | enter (s : Nat)
deriving DecidableEq, Repr

/-- What user functions return, given the calls so far with the one in question last; and whether the allocator lets the stack grow. -/
structure Env where
  ret : List Call → Int
  jump : List Call → Option Nat
  grant : Bool

/-- `bfdev_fsm_t`, fsm.h:84-89. The stack is listed from its bottom. -/
structure Fsm where
  s0 : Option Nat
  s1 : Option Nat
  count : Nat
  error : Option Nat
  stack : List Nat
deriving DecidableEq, Repr

/-- `BFDEV_FSM_INIT`, fsm.h:91-99. -/
def init (s error : Option Nat) : Fsm := ⟨s, none, 0, error, []⟩

/-- `bfdev_fsm_reset`, fsm.h:111-117. -/
def reset (m : Fsm) (s : Option Nat) : Fsm := { m with s0 := s, count := 0, stack := [] }

/-- `bfdev_fsm_curr`, fsm.h:125-134. -/
def curr (m : Fsm) : Option Nat := if m.count % 2 = 0 then m.s0 else m.s1

/-- `bfdev_fsm_prev`, fsm.h:142-151. -/
def prev (m : Fsm) : Option Nat := if ((m.count + 2 ^ 32 - 1) % 2 ^ 32) % 2 = 0 then m.s0 else m.s1

/-- `fsm_push_state`, fsm.c:10-19. -/
def pushState (m : Fsm) (s : Option Nat) : Fsm :=
  let count := (m.count + 1) % 2 ^ 32
  if count % 2 = 0 then { m with count := count, s0 := s } else { m with count := count, s1 := s }

/-- A state without transitions and exception handler: `bfdev_fsm_finished`, fsm.h:159-169, and fsm.c:153. -/
def final (s : State) : Bool := s.trans.isEmpty && !s.exception

/-- Call a user function that returns a number. -/
def call (env : Env) (log : List Call) (c : Call) : Int × List Call := (env.ret (log ++ [c]), log ++ [c])

/-- `bfdev_fsm_cond`, fsm.h:178-190. -/
def cond (G : Graph) (env : Env) (ev : Nat) (t : Nat) (log : List Call) : Bool × List Call :=
  if (G.tr t).type ≠ ev then (false, log)
  else if !(G.tr t).guard then (true, log)
  else
    let r := call env log (.guard t)
    (r.1 = 0, r.2)

/-- The loop of `fsm_find_transition`, fsm.c:27-31. -/
def findIn (G : Graph) (env : Env) (ev : Nat) : List Nat → List Call → Option Nat × List Call
  | [], log => (none, log)
  | t :: l, log =>
    let r := cond G env ev t log
    if r.1 then (some t, r.2) else findIn G env ev l r.2

/-- `fsm_find_transition`, fsm.c:21-38. -/
def find (G : Graph) (env : Env) (ev s : Nat) (log : List Call) : Option Nat × List Call :=
  let r := findIn G env ev (G.st s).trans log
  match r.1 with
  | some t => (some t, r.2)
  | none =>
    if (G.st s).exception then (env.jump (r.2 ++ [.exception s]), r.2 ++ [.exception s])
    else (none, r.2)

/-- `bfdev_fsm_error`, fsm.c:40-54. -/
def error (G : Graph) (env : Env) (m : Fsm) (log : List Call) : Fsm × Int × List Call :=
  match m.error with
  | none => (pushState m none, 0, log)
  | some e =>
    if (G.st e).enter then
      let r := call env log (.enter e)
      (pushState m (some e), r.1, r.2)
    else (pushState m (some e), 0, log)

/-- How a round of the loop in `bfdev_fsm_handle` ends: the function returns, or the loop goes on with a state. -/
inductive Out where
  | done (m : Fsm) (code : Int)
  | again (m : Fsm) (c : Nat)
deriving DecidableEq, Repr

/-- The descent through entry states, fsm.c:108-109. -/
def descend (G : Graph) : (fuel n : Nat) → Option Nat
  | 0, _ => none
  | fuel + 1, n => match (G.st n).entry with
    | none => some n
    | some e => descend G fuel e

/-- The end of a round, fsm.c:140-174, after the callbacks. -/
def arrive (G : Graph) (env : Env) (m : Fsm) (c t n : Nat) : Out :=
  let m := pushState m (some n)
  if m.error = some n then .done m (-14)
  else if c = n then .done m 2
  else if final (G.st n) then .done m 3
  else if (G.tr t).stack > 0 then
    if !env.grant then .done m (-12)
    else
      let m := { m with stack := m.stack ++ [c] }
      if (G.tr t).cross then .again m n else .done m 0
  else if (G.tr t).cross then .again m n
  else .done m 0

/-- The callbacks of a transition, fsm.c:111-138, and what follows. -/
def fire (G : Graph) (env : Env) (m : Fsm) (c t n : Nat) (log : List Call) : Out × List Call :=
  let tr := G.tr t
  let r1 := if c ≠ n ∧ tr.stack ≤ 0 ∧ (G.st c).exit then call env log (.exit c) else (0, log)
  if r1.1 ≠ 0 then (.done m r1.1, r1.2)
  else
    let r2 := if tr.action then call env r1.2 (.action t c n) else (0, r1.2)
    if r2.1 ≠ 0 then (.done m r2.1, r2.2)
    else
      let r3 := if c ≠ n ∧ tr.stack ≥ 0 ∧ (G.st n).enter then call env r2.2 (.enter n) else (0, r2.2)
      if r3.1 ≠ 0 then (.done m r3.1, r3.2)
      else (arrive G env m c t n, r3.2)

/-- No next state, fsm.c:98-101: the error state. -/
def noNext (G : Graph) (env : Env) (m : Fsm) (log : List Call) : Out × List Call :=
  let r := error G env m log
  (.done r.1 (if r.2.1 ≠ 0 then r.2.1 else -2), r.2.2)

/-- A transition was found, fsm.c:80-138: the next state is named, or popped from the stack (the lowest of the popped states,
array.c:97-101); negating `INT_MIN` is undefined. -/
def take (G : Graph) (env : Env) (fuel : Nat) (m : Fsm) (c t : Nat) (log : List Call) : Option (Out × List Call) :=
  match (G.tr t).next with
  | some n => (descend G fuel n).map fun n => fire G env m c t n log
  | none =>
    if (G.tr t).stack < 0 then
      if (G.tr t).stack ≤ -2 ^ 31 then none
      else
        let num := (-(G.tr t).stack).toNat
        if m.stack.length < num then some (.done m (-75), log)
        else
          let m' := { m with stack := m.stack.take (m.stack.length - num) }
          match m.stack[m.stack.length - num]? with
          | none => none
          | some n => (descend G fuel n).map fun n => fire G env m' c t n log
    else some (noNext G env m log)

/-- One round of the loop in `bfdev_fsm_handle`, fsm.c:66-174. -/
def round (G : Graph) (env : Env) (ev fuel : Nat) (m : Fsm) (c : Nat) (log : List Call) : Option (Out × List Call) :=
  let f := find G env ev c log
  match f.1 with
  | none => match (G.st c).parent with
    | none => some (.done m 1, f.2)
    | some p => some (.again m p, f.2)
  | some t => take G env fuel m c t f.2

/-- The loop of `bfdev_fsm_handle`, fsm.c:65-177. -/
def loop (G : Graph) (env : Env) (ev : Nat) : (fuel : Nat) → Fsm → Nat → List Call → Option (Fsm × Int × List Call)
  | 0, _, _, _ => none
  | fuel + 1, m, c, log =>
    match round G env ev (fuel + 1) m c log with
    | none => none
    | some (.done m code, log) => some (m, code, log)
    | some (.again m c, log) => loop G env ev fuel m c log

/-- `bfdev_fsm_handle`, fsm.c:56-178: the machine, the return value and the calls made so far. -/
def handle (G : Graph) (env : Env) (ev fuel : Nat) (m : Fsm) (log : List Call) : Option (Fsm × Int × List Call) :=
  match curr m with
  | none => some (m, -22, log)
  | some c => loop G env ev fuel m c log

end Bfdev.Fsm

/-!
Model of `include/bfdev/once.h`: one place in the program, reached by any number of threads; the read of the static flag and
the write to it are separate accesses (they are not atomic operations), each one step of a schedule.
-/
namespace Bfdev.Once

abbrev Tid := Nat

/-- Where a thread is: elsewhere, or behind the test of `BFDEV_DO_ONCE_DONE` that succeeded (once.h:20-21). What `func` does is not modelled; the flag is
set before it is called. -/
inductive Loc where
  | idle
  | passed
deriving DecidableEq

inductive Act where
  /-- reach the place with the condition -/
  | reach (condition : Bool)
  /-- set the flag and call `func` -/
  | go
deriving DecidableEq

/-- The flag, the threads, and for the statements the runs of `func` by thread and the conditions handed back. -/
structure Sys where
  already : Bool
  loc : Tid → Loc
  runs : List Tid
  log : List (Tid × Bool)

/-- `static bool __already`, once.h:16. -/
def init : Sys := ⟨false, fun _ => .idle, [], []⟩

def upd (f : Tid → Loc) (t : Tid) (l : Loc) : Tid → Loc := fun u => if u = t then l else f u

/-- `BFDEV_DO_ONCE_ON`, once.h:28-33, with `BFDEV_DO_ONCE_DONE`, once.h:15-26: test, then set the flag and call. -/
def step (s : Sys) (t : Tid) (a : Act) : Option Sys :=
  match s.loc t, a with
  | .idle, .reach condition =>
    if condition && !s.already then some { s with loc := upd s.loc t .passed }
    else some { s with log := (t, condition) :: s.log }
  | .passed, .go => some { s with already := true, loc := upd s.loc t .idle, runs := t :: s.runs, log := (t, true) :: s.log }
  | _, _ => none

def run (s : Sys) : List (Tid × Act) → Option Sys
  | [] => some s
  | (t, a) :: l => (step s t a).bind fun s' => run s' l

/-- A thread that reaches the place with nobody in between: the two steps in one piece. -/
def reach (s : Sys) (t : Tid) (condition : Bool) : Option Sys := do
  let s ← step s t (.reach condition)
  if s.loc t = .passed then step s t .go else return s

/-- The places reached one after the other. -/
def seq (s : Sys) : List (Tid × Bool) → Option Sys
  | [] => some s
  | (t, c) :: l => (reach s t c).bind fun s' => seq s' l

end Bfdev.Once

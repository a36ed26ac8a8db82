import Verif.Scan.Model
/-!
Model of `include/bfdev/refcount.h` on top of `asm-generic/cmpxchg.h`: any number of threads, one counter, every atomic access one step
of a schedule. Memory is sequentially consistent (the `__sync` builtins are full barriers). `BFDEV_DEBUG_REFCNT`, on in the default
configuration, only prints reports, which are modelled in `Verif/Refcount/Report.lean`.
-/
namespace Bfdev.Refcount
open Scan (Word)

abbrev Tid := Nat

/-- `bfdev_arch_cmpxchg` and `bfdev_arch_try_cmpxchg`, asm-generic/cmpxchg.h:16-23, 41-55: success, the new content of the counter, the
new content of `*old`. The compare-and-swap builtin is the atomic step. -/
def tryCmpxchg (count old value : Word) : Bool × Word × Word :=
  let result := count
  let count := if result = old then value else count
  (result == old, count, if result ≠ old then result else old)

/-- Where a thread is: outside the counter, or at the head of the loop of `bfdev_refcnt_fetch_addnz_test` (refcount.h:113-116) with its
local `prev`. The number of additions made by the call so far is kept for the statements only. -/
inductive Loc where
  | idle
  | trying (nr prev : Word) (made : Nat)
deriving DecidableEq

/-- What a thread does next. -/
inductive Act where
  | add (nr : Word)
  | subTest (nr : Word)
  | addnz (nr : Word)
  | go
deriving DecidableEq

/-- A finished call with what it reports: the value handed out through `oldp` and the returned flag. -/
inductive Ev where
  | add (nr old : Word)
  | subTest (nr old : Word) (zero : Bool)
  | addnz (nr old : Word) (zero : Bool) (made : Nat)
deriving DecidableEq

structure Sys where
  count : Word
  loc : Tid → Loc
  log : List (Tid × Ev)

/-- `BFDEV_REFCNT_INIT`, refcount.h:35-40, no thread inside an operation. -/
def init (count : Word) : Sys := ⟨count, fun _ => .idle, []⟩

/-- `BFDEV_REFCNT_STATIC`, refcount.h:35-37. -/
def initial : Word := 1

def Sys.at (s : Sys) (t : Tid) (l : Loc) : Sys := { s with loc := fun u => if u = t then l else s.loc u }

/-- Behind the loop of refcount.h:113-128: hand out `prev`, return `!prev`. -/
def Sys.finish (s : Sys) (t : Tid) (nr prev : Word) (made : Nat) : Sys :=
  { s.at t .idle with log := (t, .addnz nr prev (prev == 0) made) :: s.log }

/-- One turn of the loop of `bfdev_refcnt_fetch_addnz_test`, refcount.h:113-116: leave when `prev` is zero, go on when the exchange
succeeded, leave when it failed. -/
def Sys.turn (s : Sys) (t : Tid) (nr prev : Word) (made : Nat) : Sys :=
  if prev = 0 then s.finish t nr prev made
  else
    let r := tryCmpxchg s.count prev (prev + nr)
    if r.1 then { s with count := r.2.1 }.at t (.trying nr r.2.2 (made + 1))
    else { s with count := r.2.1 }.finish t nr r.2.2 made

/-- One step of thread `t`: `bfdev_refcnt_fetch_add` (refcount.h:62-78), `bfdev_refcnt_fetch_sub_test` (refcount.h:80-104), the read that
opens `bfdev_refcnt_fetch_addnz_test` (refcount.h:110), or a turn of its loop. No state when the thread cannot do that. -/
def step (s : Sys) (t : Tid) (a : Act) : Option Sys :=
  match s.loc t, a with
  | .idle, .add nr => some { s with count := s.count + nr, log := (t, .add nr s.count) :: s.log }
  | .idle, .subTest nr => some { s with count := s.count - nr, log := (t, .subTest nr s.count (s.count == nr)) :: s.log }
  | .idle, .addnz nr => some (s.at t (.trying nr s.count 0))
  | .trying nr prev made, .go => some (s.turn t nr prev made)
  | _, _ => none

/-- A schedule. -/
def run (s : Sys) : List (Tid × Act) → Option Sys
  | [] => some s
  | (t, a) :: l => (step s t a).bind fun s' => run s' l

end Bfdev.Refcount

import Verif.Scan.Model
/-!
Model of `include/bfdev/asm-generic/atomic.h` and `include/bfdev/asm-generic/cmpxchg.h`: any number of threads share an array of words and every
access to it is one step of a schedule; memory is sequentially consistent (the `__sync` builtins are full barriers). The wrappers of
`include/bfdev/atomic.h` and `include/bfdev/cmpxchg.h` only pass their arguments on.
-/
namespace Bfdev.Atomic
open Scan (Word)

abbrev Tid := Nat
/-- The words of memory; `bfdev_atomic_t` is a word. -/
abbrev Mem := Nat → Word

def upd {α : Type} (f : Nat → α) (a : Nat) (v : α) : Nat → α := fun x => if x = a then v else f x

/-- The operations of the `__sync` builtins. -/
inductive Op where
  | add | sub | and | or | xor
deriving DecidableEq

/-- The value a builtin stores. -/
def Op.store (x v : Word) : Op → Word
  | .add => x + v
  | .sub => x - v
  | .and => x &&& v
  | .or => x ||| v
  | .xor => x ^^^ v

/-- The calls: `bfdev_atomic_read`, `_write`, `_add` to `_xor`, `_fetch_add` to `_fetch_xor`, `_add_fetch` to `_xor_fetch`, `bfdev_cmpxchg`,
`bfdev_try_cmpxchg` (`old` is the content of `*old`) and `bfdev_xchg`. -/
inductive Call where
  | read
  | write (v : Word)
  | plain (op : Op) (v : Word)
  | fetch (op : Op) (v : Word)
  | opFetch (op : Op) (v : Word)
  | cmpxchg (old v : Word)
  | tryCmpxchg (old v : Word)
  | xchg (v : Word)
deriving DecidableEq

/-- What a thread does next: begin a call on a word, or go on in the one it is in. -/
inductive Act where
  | call (a : Nat) (c : Call)
  | go
deriving DecidableEq

/-- A finished call: the word, the value returned (for `try_cmpxchg` the content of `*old`; 0 if there is none) and the returned truth value. -/
structure Ev where
  addr : Nat
  call : Call
  ret : Word
  ok : Bool
deriving DecidableEq

/-- Where a thread is: outside, or in `bfdev_arch_xchg` before the read (asm-generic/cmpxchg.h:33) or before the exchange
(asm-generic/cmpxchg.h:34). -/
inductive Loc where
  | idle
  | reading (a : Nat) (v : Word)
  | swapping (a : Nat) (v prev : Word)
deriving DecidableEq

structure Sys where
  mem : Mem
  loc : Tid → Loc
  log : List (Tid × Ev)
  /-- how often the loop of `bfdev_arch_xchg` went round again, for the statements only -/
  again : Tid → Nat

def init (m : Mem) : Sys := ⟨m, fun _ => .idle, [], fun _ => 0⟩

/-- `__sync_val_compare_and_swap`: the new content and the value returned. -/
def cas (x old v : Word) : Word × Word := (if x = old then v else x, x)

/-- `bfdev_arch_try_cmpxchg`, asm-generic/cmpxchg.h:41-55: the new content of the word, of `*old`, and the result. -/
def tryCas (x old v : Word) : Word × Word × Bool :=
  let prev := old
  let r := cas x prev v
  let old := if r.2 ≠ prev then r.2 else old
  (r.1, old, r.2 == prev)

/-- The end of a call on word `a`: its new content, the value and the truth value returned. -/
def Sys.finish (s : Sys) (t : Tid) (a : Nat) (c : Call) (new ret : Word) (ok : Bool) : Sys :=
  { s with mem := upd s.mem a new, loc := upd s.loc t .idle, log := (t, ⟨a, c, ret, ok⟩) :: s.log }

/-- One step of thread `t`. `bfdev_arch_atomic_read`, `_write`, asm-generic/atomic.h:15-31; `_add` to `_xor`, asm-generic/atomic.h:47-70; `_fetch_add` to
`_fetch_xor`, asm-generic/atomic.h:72-95; `_add_fetch` to `_xor_fetch`, asm-generic/atomic.h:97-120; `bfdev_arch_cmpxchg` and `bfdev_arch_xchg`,
asm-generic/cmpxchg.h:16-39. No state when the thread cannot do that. -/
def step (s : Sys) (t : Tid) (act : Act) : Option Sys :=
  match s.loc t, act with
  | .idle, .call a c =>
    let x := s.mem a
    match c with
    | .read => some (s.finish t a c x x false)
    | .write v => some (s.finish t a c v 0 false)
    | .plain op v => some (s.finish t a c (op.store x v) 0 false)
    | .fetch op v => some (s.finish t a c (op.store x v) x false)
    | .opFetch op v => some (s.finish t a c (op.store x v) (op.store x v) false)
    | .cmpxchg old v => some (s.finish t a c (cas x old v).1 (cas x old v).2 false)
    | .tryCmpxchg old v => some (s.finish t a c (tryCas x old v).1 (tryCas x old v).2.1 (tryCas x old v).2.2)
    | .xchg v => some { s with loc := upd s.loc t (.swapping a v x) }
  | .reading a v, .go => some { s with loc := upd s.loc t (.swapping a v (s.mem a)) }
  | .swapping a v prev, .go =>
    let r := cas (s.mem a) prev v
    if r.2 ≠ prev then some { s with mem := upd s.mem a r.1, loc := upd s.loc t (.reading a v), again := upd s.again t (s.again t + 1) }
    else some (s.finish t a (.xchg v) r.1 r.2 false)
  | _, _ => none

/-- A schedule. -/
def run (s : Sys) : List (Tid × Act) → Option Sys
  | [] => some s
  | (t, a) :: l => (step s t a).bind fun s' => run s' l

end Bfdev.Atomic

/-!
Model of `src/llist.c` and `include/bfdev/llist.h` on top of `asm-generic/cmpxchg.h`: any number of threads, one list, every shared access
one step of a schedule. Nodes are numbers, 0 is NULL. Memory is sequentially consistent and nodes stay allocated.
-/
namespace Bfdev.Llist

abbrev Tid := Nat

/-- Where a thread is. The batch of a push is the chain the caller prepared; the code knows its first and its last node. -/
inductive Loc where
  | idle
  /-- llist.c:17-19, about to store `end->next = entry` -/
  | pushA (batch : List Nat) (entry : Nat)
  /-- llist.c:20-23, about to exchange -/
  | pushB (batch : List Nat) (entry : Nat)
  /-- asm-generic/cmpxchg.h:32-33, about to read `*atomic` -/
  | grabA
  /-- asm-generic/cmpxchg.h:34-35, about to exchange -/
  | grabB (prev : Nat)
  /-- llist.c:35-37, about to test `entry` and read `entry->next` -/
  | delA (entry : Nat)
  /-- llist.c:38-41, about to exchange -/
  | delB (entry next : Nat)
deriving DecidableEq

/-- What a thread does next. -/
inductive Act where
  | push (batch : List Nat)
  | grab
  | del
  | go

/-- An operation that took effect, with what it reports: a push of a batch says whether the list was empty; a grab returns a pointer,
to be followed in the memory of that moment; a removal returns a node or NULL. -/
inductive Ev where
  | push (batch : List Nat) (empty : Bool)
  | grab (first : Nat) (next : Nat → Nat)
  | del (node : Nat)

structure Sys where
  head : Nat
  next : Nat → Nat
  loc : Tid → Loc
  log : List (Tid × Ev)

/-- An empty list (`BFDEV_SLIST_HEAD_INIT`, slist.h:23-28) in any memory. -/
def init (next : Nat → Nat) : Sys := ⟨0, next, fun _ => .idle, []⟩

def upd (f : Nat → Nat) (a v : Nat) : Nat → Nat := fun x => if x = a then v else f x

def Sys.at (s : Sys) (t : Tid) (l : Loc) : Sys := { s with loc := fun u => if u = t then l else s.loc u }

def Sys.note (s : Sys) (t : Tid) (e : Ev) : Sys := { s with log := (t, e) :: s.log }

/-- The caller chains the nodes of its batch, in private, before the call. -/
def linkUp (next : Nat → Nat) : List Nat → (Nat → Nat)
  | a :: b :: r => linkUp (upd next a b) (b :: r)
  | _ => next

/-- `entry` of `bfdev_llist_del` has just been read (llist.c:34 or the failed exchange): a NULL is what the call will report. -/
def Sys.seen (s : Sys) (t : Tid) : Sys :=
  if s.head = 0 then (s.note t (.del 0)).at t (.delA s.head) else s.at t (.delA s.head)

/-- One step of thread `t`: `bfdev_llist_split` (llist.c:11-26, `bfdev_llist_add` is the batch of one), `bfdev_llist_destroy`
(llist.h:54-58 with `bfdev_arch_xchg`, asm-generic/cmpxchg.h:25-39), `bfdev_llist_del` (llist.c:28-44). -/
def step (s : Sys) (t : Tid) (a : Act) : Option Sys :=
  match s.loc t, a with
  | .idle, .push b => if b = [] then none else some ({ s with next := linkUp s.next b }.at t (.pushA b s.head))
  | .pushA b entry, .go => some ({ s with next := upd s.next (b.getLastD 0) entry }.at t (.pushB b entry))
  | .pushB b entry, .go =>
    if s.head = entry then some (({ s with head := b.headD 0 }.note t (.push b (entry == 0))).at t .idle)
    else some (s.at t (.pushA b s.head))
  | .idle, .grab => some (s.at t .grabA)
  | .grabA, .go => some (s.at t (.grabB s.head))
  | .grabB prev, .go =>
    if s.head = prev then some (({ s with head := 0 }.note t (.grab prev s.next)).at t .idle)
    else some (s.at t .grabA)
  | .idle, .del => some (s.seen t)
  | .delA entry, .go => if entry = 0 then some (s.at t .idle) else some (s.at t (.delB entry (s.next entry)))
  | .delB entry next, .go =>
    if s.head = entry then some (({ s with head := next }.note t (.del entry)).at t .idle)
    else some (s.seen t)
  | _, _ => none

/-- A schedule. -/
def run (s : Sys) : List (Tid × Act) → Option Sys
  | [] => some s
  | (t, a) :: l => (step s t a).bind fun s' => run s' l

end Bfdev.Llist

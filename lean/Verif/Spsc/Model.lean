import Verif.Fifo.Model
/-!
A fifo (`src/fifo.c`, `include/bfdev/fifo.h`, no records) used by one thread that only puts in and one that only takes out, without a lock. Every access of one
thread to memory the other thread also uses is a step of its own: the load of the other side's counter, each byte of a copy (a `memcpy` may copy in any
order, so the schedule chooses which byte is next), the store of the own counter. Memory is sequentially consistent and the accesses are made in the order of the
source; the code has no barriers of its own. `none` is an access outside the fifo's block or outside the caller's buffer.
-/
namespace Bfdev.Spsc
open Fifo (Fifo copyPlan)

/-- The three kinds of calls of the reading side that may have to wait for the end of their copy: `bfdev_fifo_peek`/`bfdev_fifo_out_peek`,
`bfdev_fifo_get`/`bfdev_fifo_out`, and `bfdev_fifo_homing`, which has loaded a value of `in`. -/
inductive Kind where
  | peek
  | out
  | home (inp : Nat)
  deriving DecidableEq, Repr

/-- A call of the writing side after its load of `out`: the count it will add, and the bytes still to be stored. -/
structure PCall where
  n : Nat
  todo : List (Nat × Byte)
  deriving DecidableEq, Repr

/-- A call of the reading side after its load of `in`: the count, the bytes still to be loaded (index in the caller's buffer, address in the fifo), the buffer as
handed over by the caller, and as it is now. -/
structure CCall where
  kind : Kind
  n : Nat
  todo : List (Nat × Nat)
  before : List Byte
  buf : List Byte
  deriving DecidableEq, Repr

/-- What a caller sees, and when calls begin. -/
inductive Ev where
  /-- `bfdev_fifo_put` returned 0 -/
  | putFull (v : List Byte)
  /-- a call that puts in has looked at the fill level -/
  | inBegin (elems : List (List Byte)) (len : Nat)
  /-- and has returned this count -/
  | inEnd (ret : Nat)
  /-- `bfdev_fifo_get` or `bfdev_fifo_peek` returned 0 -/
  | getEmpty
  /-- a call that takes out or peeks has looked at the fill level -/
  | outBegin (len : Nat)
  /-- and has returned this count; the caller's buffer before and after the call -/
  | outEnd (keep : Bool) (ret : Nat) (before after : List Byte)
  | homeBegin
  | homeEnd
  /-- `bfdev_fifo_len` returned this count -/
  | len (n : Nat)
  deriving DecidableEq, Repr

structure Sys where
  f : Fifo
  prod : Option PCall
  cons : Option CCall
  log : List Ev
  deriving DecidableEq, Repr

def init (f : Fifo) : Sys := ⟨f, none, none, []⟩

def Sys.note (s : Sys) (e : Ev) : Sys := { s with log := s.log ++ [e] }

/-- The steps of the schedule. -/
inductive Act where
  /-- writing side: begin of `bfdev_fifo_put` -/
  | put (v : List Byte)
  /-- writing side: begin of `bfdev_fifo_in`, the buffer holds these elements -/
  | inn (elems : List (List Byte)) (len : Nat)
  /-- writing side: store one of the bytes that are left -/
  | store (k : Nat)
  /-- writing side: store `in` and return -/
  | inEnd
  /-- writing side: `bfdev_fifo_len` -/
  | lenP
  /-- reading side: begin of `bfdev_fifo_get` (or of `bfdev_fifo_peek`), with the caller's object -/
  | get (keep : Bool) (buf : List Byte)
  /-- reading side: begin of `bfdev_fifo_out` (or of `bfdev_fifo_out_peek`), with the caller's buffer -/
  | out (keep : Bool) (buf : List Byte) (len : Nat)
  /-- reading side: begin of `bfdev_fifo_homing` -/
  | home
  /-- reading side: load one of the bytes that are left -/
  | load (k : Nat)
  /-- reading side: store `out`, unless peeking, and return -/
  | outEnd
  /-- reading side: `bfdev_fifo_len` -/
  | lenC
  deriving DecidableEq, Repr

/-- The single-byte stores of a copy of `bs` to address `off`. -/
def stores (off : Nat) (bs : List Byte) : List (Nat × Byte) := bs.zipIdx.map fun x => (off + x.2, x.1)

/-- The single-byte loads of a copy of `n` bytes from address `a` to the index `i` of the buffer. -/
def loads (i a n : Nat) : List (Nat × Nat) := (List.range n).map fun j => (i + j, a + j)

/-- `fifo_in_copy`, src/fifo.c:40-48 with 11-28, as single-byte stores; the caller's buffer is private. -/
def inPlan (f : Fifo) (buff : List Byte) (len offset : Nat) : Option (List (Nat × Byte)) :=
  let (offset, len, llen) := copyPlan f len offset
  do
    let a ← rd buff 0 llen
    let b ← rd buff llen (len - llen)
    return stores offset a ++ stores 0 b

/-- `fifo_out_copy`, src/fifo.c:30-38 with 11-28, as single-byte loads. -/
def outPlan (f : Fifo) (len offset : Nat) : List (Nat × Nat) :=
  let (offset, len, llen) := copyPlan f len offset
  loads 0 offset llen ++ loads llen 0 (len - llen)

/-- The address of the element a counter points at in the macros, include/bfdev/fifo.h:317, 345, 373. -/
def slot (f : Fifo) (x : Nat) : Nat := (x &&& f.mask) * f.esize

/-- One step. A step the thread cannot take now (a call while it is in a call, an end before the copy is complete) is passed over. -/
def step (s : Sys) : Act → Option Sys
  -- bfdev_fifo_put, include/bfdev/fifo.h:358-379, up to the check
  | .put v =>
    match s.prod with
    | some _ => some s
    | none =>
      if Fifo.full s.f then some (s.note (.putFull v))
      else some ({ s with prod := some ⟨1, stores (slot s.f s.f.inp) v⟩ }.note (.inBegin [v] 1))
  -- bfdev_fifo_in_flat, src/fifo.c:140-146
  | .inn elems len =>
    match s.prod with
    | some _ => some s
    | none =>
      let n := min len (Fifo.unused s.f)
      (inPlan s.f elems.flatten n s.f.inp).map fun todo => { s with prod := some ⟨n, todo⟩ }.note (.inBegin elems len)
  -- one byte of the copy, src/fifo.c:26-27, or of the assignment, include/bfdev/fifo.h:370-374
  | .store k =>
    match s.prod with
    | none => some s
    | some p =>
      match p.todo[k]? with
      | none => some s
      | some (a, v) =>
        if a < s.f.data.length then
          some { s with f := { s.f with data := s.f.data.set a v }, prod := some { p with todo := p.todo.eraseIdx k } }
        else none
  -- src/fifo.c:148, include/bfdev/fifo.h:375
  | .inEnd =>
    match s.prod with
    | none => some s
    | some p =>
      if p.todo = [] then some ({ s with f := { s.f with inp := w64 (s.f.inp + p.n) }, prod := none }.note (.inEnd p.n))
      else some s
  | .lenP => if s.prod.isSome then some s else some (s.note (.len (Fifo.valid s.f)))
  -- bfdev_fifo_get, include/bfdev/fifo.h:330-350, up to the check; bfdev_fifo_peek, 303-322
  | .get keep buf =>
    match s.cons with
    | some _ => some s
    | none =>
      if Fifo.empty s.f then some (s.note .getEmpty)
      else some ({ s with cons := some ⟨if keep then .peek else .out, 1, loads 0 (slot s.f s.f.out) s.f.esize, buf, buf⟩ }.note (.outBegin 1))
  -- bfdev_fifo_peek_flat, src/fifo.c:117-124, also the first part of bfdev_fifo_out_flat, 129-134
  | .out keep buf len =>
    match s.cons with
    | some _ => some s
    | none =>
      let n := min len (Fifo.valid s.f)
      some ({ s with cons := some ⟨if keep then .peek else .out, n, outPlan s.f n s.f.out, buf, buf⟩ }.note (.outBegin len))
  -- bfdev_fifo_homing, include/bfdev/fifo.h:234-237, the load of in
  | .home =>
    match s.cons with
    | some _ => some s
    | none => some ({ s with cons := some ⟨.home s.f.inp, Fifo.valid s.f, [], [], []⟩ }.note .homeBegin)
  -- one byte of the copy
  | .load k =>
    match s.cons with
    | none => some s
    | some c =>
      match c.todo[k]? with
      | none => some s
      | some (i, a) =>
        match s.f.data[a]? with
        | none => none
        | some v => if i < c.buf.length then some { s with cons := some { c with todo := c.todo.eraseIdx k, buf := c.buf.set i v } } else none
  -- src/fifo.c:135, include/bfdev/fifo.h:346, 236
  | .outEnd =>
    match s.cons with
    | none => some s
    | some c =>
      if c.todo = [] then
        match c.kind with
        | .peek => some ({ s with cons := none }.note (.outEnd true c.n c.before c.buf))
        | .out => some ({ s with f := { s.f with out := w64 (s.f.out + c.n) }, cons := none }.note (.outEnd false c.n c.before c.buf))
        | .home inp => some ({ s with f := { s.f with out := inp }, cons := none }.note .homeEnd)
      else some s
  | .lenC => if s.cons.isSome then some s else some (s.note (.len (Fifo.valid s.f)))

/-- A schedule. -/
def run (s : Sys) : List Act → Option Sys
  | [] => some s
  | a :: l => (step s a).bind fun s' => run s' l

end Bfdev.Spsc

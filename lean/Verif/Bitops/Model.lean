import Verif.Scan.Model
/-!
Model of the atomic single-bit operations of `include/bfdev/asm-generic/bitops.h` on top of `asm-generic/atomic.h`, and of the bit operations of
`include/bfdev/bitops-endian.h`. For the first, any number of threads share an array of words and every access to it is one step of a schedule; memory
is sequentially consistent (the `__sync` builtins are full barriers). For the second, memory is bytes and the byte order of the machine a parameter.
The wrappers `bfdev_bit_*` of bitops.h:44-196 and the generated ones of bitflags.h only pass their arguments on.
-/
namespace Bfdev.Bitops
open Scan (Word)

abbrev Tid := Nat
/-- The words of memory. -/
abbrev Mem := Nat → Word

def upd {α : Type} (f : Nat → α) (a : Nat) (v : α) : Nat → α := fun x => if x = a then v else f x

/-- `BFDEV_BITS_WORD`, bits.h:18. -/
def wordOf (bit : Nat) : Nat := bit / 64
/-- `BFDEV_BIT`, bits.h:61-63. -/
def mask (bit : Nat) : Word := 1#64 <<< (bit % 64)

/-- The calls, all with a bit number below 2^32 (`unsigned int`). -/
inductive Call where
  | clr | set | flip | change (val : Bool) | test | testClr | testSet | testFlip | testChange (val : Bool)
deriving DecidableEq

/-- The new word and the word returned by the atomic instruction each call ends in: `__sync_fetch_and_and`, `__sync_fetch_and_or`,
`__sync_fetch_and_xor` (asm-generic/atomic.h:33-45, 57-95) or a plain read (asm-generic/atomic.h:15-22). -/
def Call.fetch (bit : Nat) (w : Word) : Call → Word × Word
  | .clr | .change false | .testClr | .testChange false => (w &&& ~~~mask bit, w)
  | .set | .change true | .testSet | .testChange true => (w ||| mask bit, w)
  | .flip | .testFlip => (w ^^^ mask bit, w)
  | .test => (w, w)

/-- What a thread does next: begin a call, or go on in the one it is in. -/
inductive Act where
  | call (c : Call) (bit : Nat)
  | go
deriving DecidableEq

/-- A finished call: the bit and what it was found to be. The calls without `test` in their name do not hand that out. -/
structure Ev where
  call : Call
  bit : Nat
  old : Bool
deriving DecidableEq

structure Sys where
  mem : Mem
  /-- the call a thread is in, behind its first look at the bit -/
  loc : Tid → Option (Call × Nat)
  log : List (Tid × Ev)

def init (m : Mem) : Sys := ⟨m, fun _ => none, []⟩

/-- The atomic instruction and the return of `!!(old & BFDEV_BIT(bit))`. -/
def Sys.finish (s : Sys) (t : Tid) (c : Call) (bit : Nat) : Sys :=
  let r := c.fetch bit (s.mem (wordOf bit))
  ⟨upd s.mem (wordOf bit) r.1, upd s.loc t none, (t, ⟨c, bit, (r.2 &&& mask bit) != 0⟩) :: s.log⟩

/-- One step of thread `t`. `bfdev_arch_bit_atomic_clr`, `_set`, `_flip`, `_change`, `_test`, `_test_flip`, `_test_change`
(asm-generic/bitops.h:125-176, 210-236) are one access. `bfdev_arch_bit_atomic_test_clr` (178-192) and `_test_set` (194-208) look at the bit first
and return if there is nothing to do. No state when the thread cannot do that. -/
def step (s : Sys) (t : Tid) (a : Act) : Option Sys :=
  match s.loc t, a with
  | none, .call .testClr bit =>
    if s.mem (wordOf bit) &&& mask bit = 0 then some { s with log := (t, ⟨.testClr, bit, false⟩) :: s.log }
    else some { s with loc := upd s.loc t (some (.testClr, bit)) }
  | none, .call .testSet bit =>
    if s.mem (wordOf bit) &&& mask bit ≠ 0 then some { s with log := (t, ⟨.testSet, bit, true⟩) :: s.log }
    else some { s with loc := upd s.loc t (some (.testSet, bit)) }
  | none, .call c bit => some (s.finish t c bit)
  | some (c, bit), .go => some (s.finish t c bit)
  | _, _ => none

/-- A schedule. -/
def run (s : Sys) : List (Tid × Act) → Option Sys
  | [] => some s
  | (t, a) :: l => (step s t a).bind fun s' => run s' l

/-! ### Bit numbers by byte order, bitops-endian.h -/

/-- Whether the machine is big endian. -/
abbrev Big := Bool

/-- Memory as bytes. -/
abbrev Bytes := Nat → BitVec 8

/-- The address in memory of byte `k` (counted from the lowest) of the `w`-th word. -/
def addr (e : Big) (w k : Nat) : Nat := 8 * w + if e then 7 - k else k

/-- A load of a word. -/
def load (e : Big) (m : Bytes) (w : Nat) : Word :=
  m (addr e w 7) ++ m (addr e w 6) ++ m (addr e w 5) ++ m (addr e w 4) ++ m (addr e w 3) ++ m (addr e w 2) ++ m (addr e w 1) ++ m (addr e w 0)

/-- A store of a word. -/
def store (e : Big) (m : Bytes) (w : Nat) (v : Word) : Bytes :=
  fun a => if a / 8 = w then v.extractLsb' (8 * if e then 7 - a % 8 else a % 8) 8 else m a

/-- `BFDEV_BITOPS_LE_SWIZZLE`, bitops-endian.h:17, 20. -/
def leSwizzle (e : Big) : Nat := if e then 63 &&& (2 ^ 32 - 1 - 7) else 0
/-- `BFDEV_BITOPS_BE_SWIZZLE`, bitops-endian.h:18, 21. -/
def beSwizzle (e : Big) : Nat := if e then 0 else 63 &&& (2 ^ 32 - 1 - 7)

/-- The nine single-bit operations and their nine atomic forms (asm-generic/bitops.h:17-236), in the absence of other threads: the new memory and the
bit found. -/
def bitOp (e : Big) (c : Call) (m : Bytes) (bit : Nat) : Bytes × Bool :=
  let r := c.fetch bit (load e m (wordOf bit))
  (store e m (wordOf bit) r.1, (r.2 &&& mask bit) != 0)

/-- `bfdev_bit_*_le`, bitops-endian.h:26-126. -/
def bitOpLe (e : Big) (c : Call) (m : Bytes) (bit : Nat) : Bytes × Bool := bitOp e c m (bit ^^^ leSwizzle e)
/-- `bfdev_bit_*_be`, bitops-endian.h:128-234. -/
def bitOpBe (e : Big) (c : Call) (m : Bytes) (bit : Nat) : Bytes × Bool := bitOp e c m (bit ^^^ beSwizzle e)

end Bfdev.Bitops

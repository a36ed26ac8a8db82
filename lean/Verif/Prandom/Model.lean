import Verif.Common.Mem

/-!
# Tausworthe pseudo random generator: src/prandom.c, include/bfdev/prandom.h
-/

namespace Bfdev.Prandom

abbrev U32 := BitVec 32

/-- `BFDEV_TAUSWORTHE`, prandom.h:43-46. -/
def tausworthe (seed : U32) (a b : Nat) (c : U32) (d : Nat) : U32 :=
  ((seed &&& c) <<< d) ^^^ (((seed <<< a) ^^^ seed) >>> b)

/-- `struct bfdev_prandom`, prandom.h:26-29. -/
structure State where
  s1 : U32
  s2 : U32
  s3 : U32
  s4 : U32
deriving DecidableEq, Repr

/-- `BFDEV_PRANDOM_INIT` / `bfdev_prandom_init`, prandom.h:31-52. -/
def init : State := ⟨0x408c3c09#32, 0x408c3c09#32, 0x408c3c09#32, 0x408c3c09#32⟩

/-- `seed_minimum`, prandom.c:10-14. -/
def seedMinimum (x m : U32) : U32 := if x < m then x + m else x

/-- `prandom_setup`, prandom.c:16-31. -/
def setup (seed : BitVec 64) : State :=
  let seed : U32 := (((seed >>> 32) ^^^ (seed <<< 10) ^^^ seed) &&& 0xffffffff#64).setWidth 32
  ⟨seedMinimum seed 2, seedMinimum seed 8, seedMinimum seed 16, seedMinimum seed 128⟩

/-- `prandom_value`, prandom.c:33-45. -/
def step (p : State) : State :=
  ⟨tausworthe p.s1 6 13 4294967294#32 18,
   tausworthe p.s2 2 27 4294967288#32 2,
   tausworthe p.s3 13 21 4294967280#32 7,
   tausworthe p.s4 3 12 4294967168#32 13⟩

/-- `prandom_value` executed `n` times. -/
def steps : Nat → State → State
  | 0, p => p
  | n + 1, p => steps n (step p)

/-- `bfdev_prandom_seed` with `prandom_warmup`, prandom.c:47-55, 68-73. -/
def seed (s : BitVec 64) : State := steps 10 (setup s)

/-- `bfdev_prandom_value`, prandom.c:57-66. -/
def value (p : State) : State × U32 :=
  let q := step p
  (q, q.s1 ^^^ q.s2 ^^^ q.s3 ^^^ q.s4)

/-- `bfdev_prandom_u64`, prandom.h:69-78. -/
def u64 (p : State) : State × BitVec 64 :=
  let h := value p
  let l := value h.1
  (l.1, (h.2.setWidth 64 <<< 32) ||| l.2.setWidth 64)

/-- `bfdev_prandom_long`, prandom.h:80-88, with a `long` of 64 bits. -/
def long (p : State) : State × BitVec 64 := u64 p

/-- The results of `n` calls of `bfdev_prandom_value` and the state they leave. -/
def values : Nat → State → State × List U32
  | 0, p => (p, [])
  | n + 1, p =>
    let r := value p
    let s := values n r.1
    (s.1, r.2 :: s.2)

end Bfdev.Prandom

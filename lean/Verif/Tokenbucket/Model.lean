import Verif.Common.Mem

/-!
# Token bucket: src/tokenbucket.c, include/bfdev/tokenbucket.h, include/bfdev/time.h

`bfdev_time_t` is `int64_t` (types.h:53): times are integers, and a time sum, difference or product
outside the 64-bit signed range is undefined behaviour (`none`).  `unsigned int` is 32 bits wide.
-/

namespace Bfdev.Tokenbucket

/-- A signed 64-bit result; out of range is undefined behaviour. -/
def i64 (x : Int) : Option Int := if -(2 ^ 63) ≤ x ∧ x < 2 ^ 63 then some x else none

/-- `struct bfdev_tokenbucket`, tokenbucket.h:17-25. -/
structure Bucket where
  interval : Int
  capacity : Nat
  last : Int
  current : Nat
  passed : Nat
  missed : Nat
deriving DecidableEq, Repr

/-- `BFDEV_TOKENBUCKET_INIT` / `bfdev_tokenbucket_init`, tokenbucket.h:27-42. -/
def init (interval : Int) (capacity : Nat) : Bucket := ⟨interval, capacity, 0, 0, 0, 0⟩

/-- `bfdev_tokenbucket_update`, tokenbucket.h:44-48. -/
def update (b : Bucket) (now : Int) : Bucket := { b with last := now }

/-- `bfdev_tokenbucket_reset`, tokenbucket.h:50-57. -/
def reset (b : Bucket) : Bucket := { b with last := 0, current := 0, passed := 0, missed := 0 }

/-- tokenbucket.c:19-22: the first request fills the bucket. -/
def start (b : Bucket) (now : Int) : Bucket := if b.last = 0 then { b with current := b.capacity, last := now } else b

/-- tokenbucket.c:25-27: `generate` is an `unsigned int`, and so is the sum `current + generate`. -/
def refill (b : Bucket) (now : Int) : Option Bucket := do
  let diff ← i64 (now - b.last)
  let quot ← i64 (diff.tdiv b.interval)
  let generate : Nat := (quot % 2 ^ 32).toNat
  let step ← i64 (generate * b.interval)
  let last ← i64 (step + b.last)
  some { b with last := last, current := min ((b.current + generate) % 2 ^ 32) b.capacity }

/-- `bfdev_tokenbucket`, tokenbucket.c:11-38. -/
def request (b : Bucket) (now : Int) : Option (Bucket × Bool) :=
  if b.interval = 0 then some (b, true)
  else do
    let b ← refill (start b now) now
    if b.current = 0 then some ({ b with missed := (b.missed + 1) % 2 ^ 32 }, false)
    else some ({ b with current := b.current - 1, passed := (b.passed + 1) % 2 ^ 32 }, true)

/-- A step of a history: a request or an update of the refill mark, at a time. -/
inductive Op where
  | req (now : Int)
  | upd (now : Int)
deriving DecidableEq, Repr

/-- The time of a step. -/
def Op.time : Op → Int
  | .req t => t
  | .upd t => t

/-- A history; the results are those of the requests, in order. -/
def run (b : Bucket) : List Op → Option (Bucket × List Bool)
  | [] => some (b, [])
  | .upd t :: ops => run (update b t) ops
  | .req t :: ops => do
    let r ← request b t
    let s ← run r.1 ops
    some (s.1, r.2 :: s.2)

end Bfdev.Tokenbucket

import Verif.Common.Mem

/-!
# Rate limiter: src/ratelimit.c, include/bfdev/ratelimit.h, include/bfdev/time.h

Times are `int64_t`; a sum outside the signed 64-bit range is undefined behaviour (`none`).
-/

namespace Bfdev.Ratelimit

/-- `struct bfdev_ratelimit`, ratelimit.h:25-32. -/
structure Limit where
  interval : Int
  burst : Nat
  begin : Int
  passed : Nat
  missed : Nat
deriving DecidableEq, Repr

/-- `BFDEV_RATELIMIT_INIT` / `bfdev_ratelimit_init`, ratelimit.h:34-49. -/
def init (interval : Int) (burst : Nat) : Limit := ⟨interval, burst, 0, 0, 0⟩

/-- `bfdev_ratelimit_reset`, ratelimit.h:51-57. -/
def reset (l : Limit) : Limit := { l with begin := 0, passed := 0, missed := 0 }

/-- `bfdev_time_compare` / `bfdev_time_after`, time.h:24-42 (`bfdev_cmp(x)` is 1 for true and -1 for false). -/
def timeAfter (a b : Int) : Bool := decide ((if a = b then (0 : Int) else if a > b then 1 else -1) > 0)

/-- ratelimit.c:19-20: the first call opens a window. -/
def enter (l : Limit) (now : Int) : Limit := if l.begin = 0 then { l with begin := now } else l

/-- ratelimit.c:22-25: a call after the end of the window opens the next one. -/
def turn (l : Limit) (now : Int) : Option Limit :=
  let limit := l.begin + l.interval
  if -(2 ^ 63) ≤ limit ∧ limit < 2 ^ 63 then
    some (if timeAfter now limit then { l with begin := now, passed := 0 } else l)
  else none

/-- ratelimit.c:27-33. -/
def admit (l : Limit) : Limit × Bool :=
  if l.burst > l.passed then ({ l with passed := (l.passed + 1) % 2 ^ 32 }, true)
  else ({ l with missed := (l.missed + 1) % 2 ^ 32 }, false)

/-- `bfdev_ratelimit`, ratelimit.c:11-36. -/
def request (l : Limit) (now : Int) : Option (Limit × Bool) :=
  if l.interval = 0 then some (l, true)
  else (turn (enter l now) now).map admit

/-- A history of requests. -/
def run (l : Limit) : List Int → Option (Limit × List Bool)
  | [] => some (l, [])
  | t :: ts => do
    let r ← request l t
    let s ← run r.1 ts
    some (s.1, r.2 :: s.2)

end Bfdev.Ratelimit

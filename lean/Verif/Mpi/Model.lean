import Verif.Dword.Model
/-!
Model of `src/mpi.c` and `include/bfdev/mpi.h`: big integers as sign and magnitude over 64-bit limbs, least significant first.

A limb is a natural below 2^64. The raw array routines (`mpa_*`) are functions on limb lists: each of them reads limb `i` of its operands
before it stores limb `i` of the result, so it gives the same list when the result lies over an operand. `mpa_mul` does not have that
property and works on a block of memory (`MulSrc` says which operand lies in it). Objects live in a store (`Nat → Mpi`), so operands may be
the same object. `none` is undefined behaviour or the `BFDEV_BUG_ON` abort. Growing a block of limbs may move it, and a pointer taken before
is then dead. A block of more than 2^60 limbs (2^63 bytes), which no address space holds, counts as refused by the allocator.
-/
namespace Bfdev.Mpi
open Dword

/-- The greatest limb. -/
def MAX : Nat := W64 - 1

/-- A C comparison as the number 0 or 1. -/
def b2n (b : Bool) : Nat := if b then 1 else 0

/-! ### Arrays of limbs -/

/-- `mpa_cmpi`, mpi.c:42-53, for an array of at least one limb; `BFDEV_BT` is `gt`. -/
def mpaCmpi (a : List Nat) (vi : Nat) : Ordering :=
  if a.length > 1 then .gt
  else if a.headD 0 ≠ vi then (if a.headD 0 > vi then .gt else .lt)
  else .eq

/-- The loop of `mpa_cmp`, mpi.c:64-77, with `n` limbs left. -/
def cmpLoop (a b : List Nat) : Nat → Ordering
  | 0 => .eq
  | n + 1 => if a.getD n 0 ≠ b.getD n 0 then (if a.getD n 0 > b.getD n 0 then .gt else .lt) else cmpLoop a b n

/-- `mpa_cmp`, mpi.c:55-78. -/
def mpaCmp (a b : List Nat) : Ordering :=
  if a.length ≠ b.length then (if a.length > b.length then .gt else .lt)
  else cmpLoop a b a.length

/-- The carry loops at the end of `mpa_addi` (mpi.c:91-94) and `mpa_add` (mpi.c:115-124). -/
def addc : List Nat → Nat → List Nat × Nat
  | [], c => ([], c)
  | x :: l, c =>
    let v := w64 (x + c)
    let r := addc l (b2n (v < x))
    (v :: r.1, r.2)

/-- `mpa_addi`, mpi.c:80-97 (at least one limb). -/
def mpaAddi : List Nat → Nat → List Nat × Nat
  | [], _ => ([], 0)
  | x :: l, vi =>
    let v := w64 (x + vi)
    let r := addc l (b2n (v < x))
    (v :: r.1, r.2)

/-- `mpa_add`, mpi.c:99-127. -/
def mpaAdd : List Nat → List Nat → Nat → List Nat × Nat
  | [], b, c => addc b c
  | x :: a, [], c => addc (x :: a) c
  | x :: a, y :: b, c =>
    let v := w64 (x + y + c)
    let r := mpaAdd a b (b2n (v < x))
    (v :: r.1, r.2)

/-- The borrow loops at the end of `mpa_subi` (mpi.c:140-144) and `mpa_sub` (mpi.c:165-169). -/
def subc : List Nat → Nat → List Nat × Nat
  | [], c => ([], c)
  | x :: l, c =>
    let v := wsub x c
    let r := subc l (b2n (v > x))
    (v :: r.1, r.2)

/-- `mpa_subi`, mpi.c:129-147 (at least one limb). -/
def mpaSubi : List Nat → Nat → List Nat × Nat
  | [], _ => ([], 0)
  | x :: l, vi =>
    let v := wsub x vi
    let r := subc l (b2n (v > x))
    (v :: r.1, r.2)

/-- `mpa_sub`, mpi.c:149-172. -/
def mpaSub : List Nat → List Nat → Nat → List Nat × Nat
  | [], _, c => ([], c)
  | x :: a, [], c => subc (x :: a) c
  | x :: a, y :: b, c =>
    let v := wsub (wsub x y) c
    let r := mpaSub a b (b2n (v > x))
    (v :: r.1, r.2)

/-- `mpa_muli`, mpi.c:174-189. -/
def mpaMuli : List Nat → Nat → Nat → List Nat × Nat
  | [], _, c => ([], c)
  | x :: l, vi, c =>
    let p := umul x vi
    let low := w64 (p.2 + c)
    let r := mpaMuli l vi (w64 (b2n (low < c) + p.1))
    (low :: r.1, r.2)

/-- `mpa_msui`, mpi.c:211-229: take `vi * a` from `s`. -/
def mpaMsui : List Nat → List Nat → Nat → Nat → List Nat × Nat
  | _, [], _, c => ([], c)
  | [], _ :: _, _, c => ([], c)
  | y :: s, x :: a, vi, c =>
    let p := umul x vi
    let low := w64 (p.2 + c)
    let c1 := w64 (b2n (low < c) + p.1)
    let v := wsub y low
    let r := mpaMsui s a vi (w64 (c1 + b2n (v > y)))
    (v :: r.1, r.2)

/-- `mpa_divmodi`, mpi.c:276-304, from limb `n - 1` down with the running remainder: quotient limbs and the remainder. -/
def divmodiLoop (a : List Nat) (vi : Nat) : Nat → Nat → List Nat → Option (List Nat × Nat)
  | 0, r, q => some (q, r)
  | n + 1, r, q => (udiv (a.getD n 0) r vi).bind fun u => divmodiLoop a vi n u.2 (u.1.1 :: q)

/-- `mpa_divmodi`, mpi.c:276-304: a top limb below the divisor starts the remainder and gives the quotient limb zero. -/
def mpaDivmodi (a : List Nat) (vi : Nat) : Option (List Nat × Nat) :=
  let index := a.length - 1
  let top := a.getD index 0
  if top ≥ vi then divmodiLoop a vi a.length 0 []
  else divmodiLoop a vi (a.length - 1) top [0]

/-- `mpa_modi`, mpi.c:306-330. -/
def modiLoop (a : List Nat) (vi : Nat) : Nat → Nat → Option Nat
  | 0, r => some r
  | n + 1, r => (udiv (a.getD n 0) r vi).bind fun u => modiLoop a vi n u.2

/-- `mpa_modi`, mpi.c:306-330. -/
def mpaModi (a : List Nat) (vi : Nat) : Option Nat :=
  let top := a.getD (a.length - 1) 0
  if top ≥ vi then modiLoop a vi a.length 0
  else modiLoop a vi (a.length - 1) top

/-! ### Multiplication, on the block of the result -/

/-- Where an operand of `mpa_mul` is read: a block of its own, or the block of the result. -/
inductive MulSrc where
  | own (l : List Nat)
  | dest

/-- `ptr[j]` for an operand, while the block of the result holds `m`. -/
def MulSrc.get (s : MulSrc) (m : Nat → Nat) (j : Nat) : Nat :=
  match s with
  | .own l => l.getD j 0
  | .dest => m j

/-- Store limb `i` of the block. -/
def put (m : Nat → Nat) (i v : Nat) : Nat → Nat := fun k => if k = i then v else m k

/-- `mpa_muli`, mpi.c:174-189, as `mpa_mul` uses it: `n` limbs are left, `j` is the next. -/
def muliM (a : MulSrc) (vi : Nat) : (n j c : Nat) → (Nat → Nat) → (Nat → Nat) × Nat
  | 0, _, c, m => (m, c)
  | n + 1, j, c, m =>
    let p := umul (a.get m j) vi
    let low := w64 (p.2 + c)
    muliM a vi n (j + 1) (w64 (b2n (low < c) + p.1)) (put m j low)

/-- `mpa_maci`, mpi.c:191-209, into the block from limb `off` on. -/
def maciM (a : MulSrc) (off vi : Nat) : (n j c : Nat) → (Nat → Nat) → (Nat → Nat) × Nat
  | 0, _, c, m => (m, c)
  | n + 1, j, c, m =>
    let p := umul (a.get m j) vi
    let low := w64 (p.2 + c)
    let c1 := w64 (b2n (low < c) + p.1)
    let v := w64 (m (off + j) + low)
    maciM a off vi n (j + 1) (w64 (c1 + b2n (v < m (off + j)))) (put m (off + j) v)

/-- `mpa_add`, mpi.c:99-127, as `mpa_mul` uses it: the result and the first operand are the block from limb `off` on. -/
def addM (a : MulSrc) (off : Nat) : (n j c : Nat) → (Nat → Nat) → (Nat → Nat) × Nat
  | 0, _, c, m => (m, c)
  | n + 1, j, c, m =>
    let v := w64 (m (off + j) + a.get m j + c)
    addM a off n (j + 1) (b2n (v < m (off + j))) (put m (off + j) v)

/-- `mpa_copy` (mpi.c:35-40) or `mpa_zero` (mpi.c:29-33) of `n` limbs. -/
def fillM (f : Nat → Nat) (n : Nat) (m : Nat → Nat) : Nat → Nat := fun k => if k < n then f k else m k

/-- The first row of `mpa_mul`, mpi.c:246-259. -/
def mulRow0 (a b : MulSrc) (cnta : Nat) (m : Nat → Nat) : Nat → Nat :=
  let value := b.get m 0
  let r := if value > 1 then muliM a value cnta 0 0 m
    else (fillM (if value ≠ 0 then a.get m else fun _ => 0) cnta m, 0)
  put r.1 cnta r.2

/-- One round of the loop of `mpa_mul`, mpi.c:262-272. -/
def mulRow (a b : MulSrc) (cnta index : Nat) (m : Nat → Nat) : Nat → Nat :=
  let value := b.get m index
  let r := if value > 1 then maciM a index value cnta 0 0 m
    else if value ≠ 0 then addM a index cnta 0 0 m
    else (m, 0)
  put r.1 (index + cnta) r.2

/-- The loop of `mpa_mul`, mpi.c:261-273, with `n` rounds left. -/
def mulRows (a b : MulSrc) (cnta : Nat) : (n index : Nat) → (Nat → Nat) → (Nat → Nat)
  | 0, _, m => m
  | n + 1, index, m => mulRows a b cnta n (index + 1) (mulRow a b cnta index m)

/-- `mpa_mul`, mpi.c:231-274: the `cnta + cntb` limbs of the result. -/
def mpaMul (a b : MulSrc) (cnta cntb : Nat) (m : Nat → Nat) : List Nat :=
  (List.range (cnta + cntb)).map (mulRows a b cnta (cntb - 1) 1 (mulRow0 a b cnta m))

/-! ### Long division -/

/-- The correction loop of `mpa_divrem`, mpi.c:389-398, started from the product `(v1, value)` and the remainder `rem`; `u` is the limb
`ptra[cntb - 2]`. The fuel bounds the rounds: each adds the leading limb to `rem` until it wraps. -/
def divFix (dhigh dlow u : Nat) : (fuel quot rem v1 value : Nat) → Option Nat
  | 0, _, _, _, _ => none
  | fuel + 1, quot, rem, v1, value =>
    if v1 > rem ∨ (v1 = rem ∧ value > u) then
      let quot := wsub quot 1
      let rem := w64 (rem + dhigh)
      if rem < dhigh then some quot
      else divFix dhigh dlow u fuel quot rem (wsub v1 (b2n (value < dlow))) (wsub value dlow)
    else some quot

/-- The estimated quotient limb, mpi.c:376-399; `top` is `value`, `u1` and `u0` the limbs `ptra[cntb - 1]` and `ptra[cntb - 2]`. -/
def divGuess (dhigh dlow top u1 u0 : Nat) : Option Nat :=
  if top = dhigh then some MAX
  else (udiv u1 top dhigh).bind fun u =>
    let p := umul dlow u.1.1
    divFix dhigh dlow u0 W64 u.1.1 u.2 p.1 p.2

/-- One round of the loop of `mpa_divrem`, mpi.c:373-409: `w` are the `cntb` limbs at `ptra`, `next` the limb below them; the quotient limb
and the limbs at `ptra` after the round. -/
def divRound (b w : List Nat) (next : Nat) : Option (Nat × List Nat) :=
  let n := b.length
  let dhigh := b.getD (n - 1) 0
  let dlow := b.getD (n - 2) 0
  let top := w.getD (n - 1) 0
  let w' := next :: w.take (n - 1)
  (divGuess dhigh dlow top (w'.getD (n - 1) 0) (w'.getD (n - 2) 0)).map fun quot =>
    let r := mpaMsui w' b quot 0
    if top ≠ r.2 then (wsub quot 1, (mpaAdd r.1 b 0).1)
    else (quot, r.1)

/-- The loop of `mpa_divrem`, mpi.c:369-410; `low` are the limbs below, from the most significant; quotient limbs collected in front of `q`. -/
def divRounds (b : List Nat) : List Nat → List Nat → List Nat → Option (List Nat × List Nat)
  | [], w, q => some (q, w)
  | x :: low, w, q => (divRound b w x).bind fun r => divRounds b low r.2 (r.1 :: q)

/-- The first step of `mpa_divrem`, mpi.c:351-367: the flag `limb` and the leading limbs of the dividend after it. -/
def divFirst (b w : List Nat) : Option (Bool × List Nat) :=
  let n := b.length
  let value := w.getD (n - 1) 0
  let dhigh := b.getD (n - 1) 0
  if value ≥ dhigh then
    if value > dhigh ∨ mpaCmp (w.take (n - 1)) (b.take (n - 1)) ≠ .lt then
      let r := mpaSub w b 0
      if r.2 ≠ 0 then none else some (true, r.1)
    else some (false, w)
  else some (false, w)

/-- `mpa_divrem`, mpi.c:332-413, for `a` at least as long as `b` and `b` of at least two limbs: the flag, the `cnta - cntb` quotient limbs
and the `cntb` limbs of the remainder. -/
def mpaDivrem (a b : List Nat) : Option (Bool × List Nat × List Nat) :=
  let index := a.length - b.length
  (divFirst b (a.drop index)).bind fun f =>
    (divRounds b (a.take index).reverse f.2 []).map fun r => (f.1, r.1, r.2)

/-! ### Magnitudes in objects -/

/-- `bfdev_mpi_t`, mpi.h:24-28 with its array (array.h:31-37): the limbs in use, the capacity in limbs and the sign. -/
structure Mpi where
  limbs : List Nat
  cap : Nat
  plus : Bool
deriving DecidableEq, Repr

/-- The objects of a program, by name. -/
abbrev Store := Nat → Mpi

/-- What the allocator does when a block has to grow during the call: for each object, and for the local buffer of `mpi_mul` and `mpi_div`. -/
structure Grant where
  obj : Nat → Bool
  buf : Bool

/-- Return codes: success, `-BFDEV_ENOMEM`, `-BFDEV_EOVERFLOW`. -/
inductive Code where
  | ok | nomem | overflow
deriving DecidableEq, Repr

/-- Result of an operation. -/
abbrev Res := Option (Store × Code)

/-- Capacity after growing to `n` limbs, array.c:12-39: the next power of two of at least 32 limbs. -/
def capOf (n : Nat) : Nat := (List.range 62).foldr (fun k acc => if n ≤ 2 ^ k ∧ 32 ≤ 2 ^ k then 2 ^ k else acc) 0

/-- `mpi_resize` (mpi.c:17) to `n` limbs over `array_apply` (array.c:41-53): the capacity afterwards and whether the block may have moved;
nothing when the allocator refuses. -/
def fit (o : Mpi) (g : Bool) (n : Nat) : Option (Nat × Bool) :=
  if n ≤ o.cap then some (o.cap, false)
  else if g ∧ n ≤ 2 ^ 60 then some (capOf n, true) else none

/-- `mpi_relocation`, mpi.c:422-439: leading zero limbs are dropped. -/
def strip (l : List Nat) : List Nat := (l.reverse.dropWhile (· = 0)).reverse

/-- Give object `d` new limbs and a capacity. -/
def store (S : Store) (d cap : Nat) (l : List Nat) : Store := fun i => if i = d then { S d with limbs := l, cap := cap } else S i

/-- Assign `plus` of object `d`. -/
def setPlus (S : Store) (d : Nat) (p : Bool) : Store := fun i => if i = d then { S d with plus := p } else S i

/-- Resize object `d` to the limbs `l`, computed from the operands. -/
def assign (S : Store) (g : Grant) (d n : Nat) (l : List Nat) : Store × Code :=
  match fit (S d) (g.obj d) n with
  | none => (S, .nomem)
  | some (cap, _) => (store S d cap l, .ok)

/-- Whether resizing `d` to `n` limbs may move its block. -/
def moves (S : Store) (g : Grant) (d n : Nat) : Bool :=
  match fit (S d) (g.obj d) n with
  | none => false
  | some (_, m) => m

/-- `mpi_copy`, mpi.c:462-480. -/
def mpiCopy (S : Store) (g : Grant) (d : Nat) (l : List Nat) : Store × Code := assign S g d l.length (strip l)

/-- `mpi_seti`, mpi.c:482-498. -/
def mpiSeti (S : Store) (g : Grant) (d vi : Nat) : Store × Code :=
  assign S g d (if vi ≠ 0 then 1 else 0) (if vi ≠ 0 then [vi] else [])

/-- `mpi_set`, mpi.c:500-513. -/
def mpiSet (S : Store) (g : Grant) (d s : Nat) : Store × Code := if d = s then (S, .ok) else mpiCopy S g d (S s).limbs

/-- `mpi_cmpi`, mpi.c:515-531. -/
def mpiCmpi (a : Mpi) (vi : Nat) : Ordering :=
  if a.limbs.length = 0 then (if vi ≠ 0 then .lt else .eq) else mpaCmpi a.limbs vi

/-- `mpi_cmp`, mpi.c:533-555. -/
def mpiCmp (a b : Mpi) : Ordering :=
  if a.limbs.length = 0 then (if b.limbs.length ≠ 0 then .lt else .eq)
  else if b.limbs.length = 0 then .gt
  else mpaCmp a.limbs b.limbs

/-- `mpi_addi`, mpi.c:557-583. -/
def mpiAddi (S : Store) (g : Grant) (d a vi : Nat) : Store × Code :=
  let l := (S a).limbs
  if l.length = 0 then mpiSeti S g d vi
  else
    let r := mpaAddi l vi
    assign S g d (l.length + 1) (strip (r.1 ++ [r.2]))

/-- `mpi_add`, mpi.c:585-621. The pointer to the limbs of `b` is taken before the result is resized (l.604, 609). -/
def mpiAdd (S : Store) (g : Grant) (d a b : Nat) : Res :=
  let la := (S a).limbs
  let lb := (S b).limbs
  if la.length = 0 then some (mpiSet S g d b)
  else if lb.length = 0 then some (mpiSet S g d a)
  else if lb.length = 1 then some (mpiAddi S g d a (lb.headD 0))
  else
    let length := max la.length lb.length
    if d = b ∧ moves S g d (length + 1) then none
    else
      let r := mpaAdd la lb 0
      some (assign S g d (length + 1) (strip (r.1 ++ [r.2])))

/-- `mpi_subi`, mpi.c:623-648. -/
def mpiSubi (S : Store) (g : Grant) (d a vi : Nat) : Res :=
  let l := (S a).limbs
  if l.length = 0 then none
  else
    match fit (S d) (g.obj d) l.length with
    | none => some (S, .nomem)
    | some (cap, _) =>
      let r := mpaSubi l vi
      if r.2 ≠ 0 then none else some (store S d cap (strip r.1), .ok)

/-- `mpi_sub`, mpi.c:650-684; the pointer to the limbs of `b` is taken before the result is resized (l.665, 672). -/
def mpiSub (S : Store) (g : Grant) (d a b : Nat) : Res :=
  let la := (S a).limbs
  let lb := (S b).limbs
  if lb.length = 0 then some (mpiSet S g d a)
  else if lb.length = 1 then mpiSubi S g d a (lb.headD 0)
  else if la.length < lb.length then none
  else
    match fit (S d) (g.obj d) la.length with
    | none => some (S, .nomem)
    | some (cap, moved) =>
      if d = b ∧ moved then none
      else
        let r := mpaSub la lb 0
        if r.2 ≠ 0 then none else some (store S d cap (strip r.1), .ok)

/-- `mpi_muli`, mpi.c:686-712. -/
def mpiMuli (S : Store) (g : Grant) (d a vi : Nat) : Store × Code :=
  let l := (S a).limbs
  if l.length = 0 ∨ vi = 0 then mpiSeti S g d 0
  else
    let r := mpaMuli l vi 0
    assign S g d (l.length + 1) (strip (r.1 ++ [r.2]))

/-- `mpi_mul` with the result in the local buffer, mpi.c:738-758: the result of the final `mpi_set` is not looked at. -/
def mpiMulBuf (S : Store) (g : Grant) (d : Nat) (l : List Nat) : Store × Code :=
  if g.buf ∧ l.length * 2 ≤ 2 ^ 60 then
    ((mpiCopy S g d (strip (mpaMul (.own l) (.own l) l.length l.length (fun _ => 0)))).1, .ok)
  else (S, .nomem)

/-- `mpi_mul`, mpi.c:714-761. The local buffer is used only when the result is both operands (l.739); the pointer to the limbs of `b` is
taken before the result is resized (l.734, 745). Memory of the result that no operand occupies is taken as zero; `mpa_mul` stores it
before it reads it. -/
def mpiMul (S : Store) (g : Grant) (d a b : Nat) : Res :=
  let la := (S a).limbs
  let lb := (S b).limbs
  if la.length = 0 then some (mpiSeti S g d 0)
  else if lb.length = 0 then some (mpiSeti S g d 0)
  else if lb.length = 1 then some (mpiMuli S g d a (lb.headD 0))
  else if d = a ∧ d = b then some (mpiMulBuf S g d la)
  else
    let length := la.length + lb.length
    if d = b ∧ moves S g d length then none
    else
      let l := mpaMul (if d = a then .dest else .own la) (if d = b then .dest else .own lb) la.length lb.length
        (fun i => (S d).limbs.getD i 0)
      some (assign S g d length (strip l))

/-- Store two numbers, giving up when one is refused (mpi.c:778-786 and 854-862). -/
def setTwo (S : Store) (g : Grant) (d1 v1 d2 v2 : Nat) : Store × Code :=
  let r := mpiSeti S g d1 v1
  if r.2 ≠ .ok then r else mpiSeti r.1 g d2 v2

/-- `mpi_divi`, mpi.c:763-803; the result of the last `mpi_seti` is not looked at (l.800). -/
def mpiDivi (S : Store) (g : Grant) (q r a vi : Nat) : Res :=
  let l := (S a).limbs
  if vi = 0 then some (S, .overflow)
  else if l.length = 0 then some (setTwo S g q 0 r 0)
  else
    match fit (S q) (g.obj q) l.length with
    | none => some (S, .nomem)
    | some (cap, _) =>
      (mpaDivmodi l vi).map fun dm =>
        let S' := store S q cap (strip dm.1)
        (if q ≠ r then (mpiSeti S' g r dm.2).1 else S', .ok)

/-- `mpi_modi`, mpi.c:805-828; the result of `mpi_seti` is not looked at (l.825). -/
def mpiModi (S : Store) (g : Grant) (r a vi : Nat) : Res :=
  let l := (S a).limbs
  if vi = 0 then some (S, .overflow)
  else if l.length = 0 then some (mpiSeti S g r 0)
  else (mpaModi l vi).map fun m => ((mpiSeti S g r m).1, .ok)

/-- The long division inside `mpi_div`, mpi.c:885-897, once the dividend is in the remainder: quotient and remainder limbs. -/
def divLong (la lb : List Nat) : Option (List Nat × List Nat) :=
  (mpaDivrem la lb).bind fun r =>
    let q := if r.1 then r.2.1 ++ [1] else r.2.1
    if strip q ≠ q then none else some (q, strip r.2.2)

/-- The end of `mpi_div`, mpi.c:871-904, after `mpi_set(rem, va)` has produced the store `S`. -/
def mpiDivEnd (S : Store) (g : Grant) (q r a : Nat) (la lb : List Nat) : Res :=
  let length := la.length + lb.length
  if q = a then
    if g.buf ∧ length ≤ 2 ^ 60 then
      (divLong la lb).map fun d => ((mpiCopy (store S r (S r).cap d.2) g q d.1).1, .ok)
    else some (S, .nomem)
  else
    match fit (S q) (g.obj q) length with
    | none => some (S, .nomem)
    | some (cap, _) => (divLong la lb).map fun d => (store (store S r (S r).cap d.2) q cap d.1, .ok)

/-- `mpi_div`, mpi.c:830-905. The calls in which the quotient and the remainder are one object, or one of them is the divisor, overwrite
what is still to be read; they are not followed and count as undefined. -/
def mpiDiv (S : Store) (g : Grant) (q r a b : Nat) : Res :=
  let la := (S a).limbs
  let lb := (S b).limbs
  if lb.length = 0 then some (S, .overflow)
  else if lb.length = 1 then mpiDivi S g q r a (lb.headD 0)
  else if la.length = 0 then some (setTwo S g q 0 r 0)
  else if la.length < lb.length then none
  else if q = r ∨ q = b ∨ r = b then none
  else
    let s := mpiSet S g r a
    if s.2 ≠ .ok then some s else mpiDivEnd s.1 g q r a la lb

/-- `mpi_mod`, mpi.c:907-944; the call in which the remainder is the divisor overwrites what is still to be read and counts as undefined. -/
def mpiMod (S : Store) (g : Grant) (r a b : Nat) : Res :=
  let la := (S a).limbs
  let lb := (S b).limbs
  if lb.length = 0 then some (S, .overflow)
  else if lb.length = 1 then mpiModi S g r a (lb.headD 0)
  else if la.length = 0 then some (mpiSeti S g r 0)
  else if la.length < lb.length then none
  else if r = b then none
  else
    let s := mpiSet S g r a
    if s.2 ≠ .ok then some s
    else (mpaDivrem la lb).map fun d => (store s.1 r (s.1 r).cap (strip d.2.2), .ok)

/-! ### The exported operations -/

/-- `if (retval) return retval; dest->plus = p;` — `p` is read after the operation. -/
def thenPlus (r : Store × Code) (d : Nat) (p : Store → Bool) : Store × Code :=
  if r.2 = .ok then (setPlus r.1 d (p r.1), .ok) else r

/-- `bfdev_mpi_cmp`, mpi.c:1126-1142. -/
def cmp (a b : Mpi) : Ordering :=
  if a.plus ≠ b.plus then (if a.plus then .gt else .lt)
  else match mpiCmp a b with
    | .gt => if a.plus then .gt else .lt
    | .lt => if a.plus then .lt else .gt
    | .eq => .eq

/-- `bfdev_mpi_cmpi`, mpi.c:1144-1151. -/
def cmpi (a : Mpi) (vi : Nat) : Ordering := if !a.plus then .lt else mpiCmpi a vi

/-- `bfdev_mpi_add` after the operands are ordered by length, mpi.c:1167-1203. -/
def addOrd (S : Store) (g : Grant) (d a b : Nat) : Res :=
  if (S a).plus = (S b).plus then (mpiAdd S g d a b).map fun r => thenPlus r d (fun s => (s a).plus)
  else match mpiCmp (S a) (S b) with
    | .eq => some (thenPlus (mpiSeti S g d 0) d (fun _ => true))
    | .gt => (mpiSub S g d a b).map fun r => thenPlus r d (fun s => (s a).plus)
    | .lt => (mpiSub S g d b a).map fun r => thenPlus r d (fun s => (s b).plus)

/-- `bfdev_mpi_add`, mpi.c:1153-1204. -/
def add (S : Store) (g : Grant) (d a b : Nat) : Res :=
  if (S a).limbs.length < (S b).limbs.length then addOrd S g d b a else addOrd S g d a b

/-- `bfdev_mpi_addi`, mpi.c:1206-1251; with no limbs `mpi_val` is the null pointer. -/
def addi (S : Store) (g : Grant) (d a vi : Nat) : Res :=
  if (S a).plus then some (thenPlus (mpiAddi S g d a vi) d (fun _ => true))
  else match cmpi (S a) vi with
    | .eq => some (thenPlus (mpiSeti S g d 0) d (fun _ => true))
    | .lt => match (S a).limbs with
      | [] => none
      | x :: _ => some (thenPlus (mpiSeti S g d (wsub vi x)) d (fun _ => true))
    | .gt => (mpiSubi S g d a vi).map fun r => thenPlus r d (fun _ => false)

/-- `bfdev_mpi_sub`, mpi.c:1253-1296. -/
def sub (S : Store) (g : Grant) (d a b : Nat) : Res :=
  if (S a).plus ≠ (S b).plus then (mpiAdd S g d a b).map fun r => thenPlus r d (fun s => (s a).plus)
  else match mpiCmp (S a) (S b) with
    | .eq => some (thenPlus (mpiSeti S g d 0) d (fun _ => true))
    | .gt => (mpiSub S g d a b).map fun r => thenPlus r d (fun s => (s a).plus)
    | .lt => (mpiSub S g d b a).map fun r => thenPlus r d (fun s => !(s b).plus)

/-- `bfdev_mpi_subi`, mpi.c:1298-1343. -/
def subi (S : Store) (g : Grant) (d a vi : Nat) : Res :=
  if !(S a).plus then some (thenPlus (mpiAddi S g d a vi) d (fun _ => false))
  else match mpiCmpi (S a) vi with
    | .eq => some (thenPlus (mpiSeti S g d 0) d (fun _ => true))
    | .lt => match (S a).limbs with
      | [] => none
      | x :: _ => some (thenPlus (mpiSeti S g d (wsub vi x)) d (fun _ => false))
    | .gt => (mpiSubi S g d a vi).map fun r => thenPlus r d (fun s => (s a).plus)

/-- `bfdev_mpi_mul` after the operands are ordered by length, mpi.c:1358-1364. -/
def mulOrd (S : Store) (g : Grant) (d a b : Nat) : Res :=
  (mpiMul S g d a b).map fun r => thenPlus r d (fun s => (s a).plus == (s b).plus)

/-- `bfdev_mpi_mul`, mpi.c:1345-1366. -/
def mul (S : Store) (g : Grant) (d a b : Nat) : Res :=
  if (S a).limbs.length < (S b).limbs.length then mulOrd S g d b a else mulOrd S g d a b

/-- `bfdev_mpi_muli`, mpi.c:1368-1381. -/
def muli (S : Store) (g : Grant) (d a vi : Nat) : Store × Code := thenPlus (mpiMuli S g d a vi) d (fun s => (s a).plus)

/-- `|a| < |b|` in `bfdev_mpi_div` and `bfdev_mpi_divi` (mpi.c:1404-1419, 1455-1470): the dividend is the remainder. -/
def divLess (S : Store) (g : Grant) (q r a : Nat) : Store × Code :=
  let s := if r ≠ a then thenPlus (mpiSet S g r a) r (fun s => (s a).plus) else (S, .ok)
  if s.2 ≠ .ok then s else thenPlus (mpiSeti s.1 g q 0) q (fun _ => true)

/-- Signs assigned after a division, mpi.c:1400-1401 and 1426-1427: first the quotient, then the remainder, from the store of that moment. -/
def thenSigns (r : Store × Code) (qd rd : Nat) (pq pr : Store → Bool) : Store × Code :=
  thenPlus (thenPlus r qd pq) rd pr

/-- `bfdev_mpi_div`, mpi.c:1383-1432. -/
def div (S : Store) (g : Grant) (q r a b : Nat) : Res :=
  match mpiCmp (S a) (S b) with
  | .eq => some (thenSigns (setTwo S g q 1 r 0) q r (fun s => (s a).plus == (s b).plus) (fun _ => true))
  | .lt => some (divLess S g q r a)
  | .gt => (mpiDiv S g q r a b).map fun s => thenSigns s q r (fun s => (s a).plus == (s b).plus) (fun s => (s a).plus)

/-- `bfdev_mpi_divi`, mpi.c:1434-1483. -/
def divi (S : Store) (g : Grant) (q r a vi : Nat) : Res :=
  match mpiCmpi (S a) vi with
  | .eq => some (thenSigns (setTwo S g q 1 r 0) q r (fun s => (s a).plus) (fun _ => true))
  | .lt => some (divLess S g q r a)
  | .gt => (mpiDivi S g q r a vi).map fun s => thenSigns s q r (fun s => (s a).plus) (fun s => (s a).plus)

/-- `|a| < |b|` in `bfdev_mpi_mod` and `bfdev_mpi_modi` (mpi.c:1501-1509, 1539-1547). -/
def modLess (S : Store) (g : Grant) (r a : Nat) : Store × Code :=
  if r ≠ a then thenPlus (mpiSet S g r a) r (fun s => (s a).plus) else (S, .ok)

/-- `bfdev_mpi_mod`, mpi.c:1485-1521. -/
def mod (S : Store) (g : Grant) (r a b : Nat) : Res :=
  match mpiCmp (S a) (S b) with
  | .eq => some (thenPlus (mpiSeti S g r 0) r (fun _ => true))
  | .lt => some (modLess S g r a)
  | .gt => (mpiMod S g r a b).map fun s => thenPlus s r (fun s => (s a).plus)

/-- `bfdev_mpi_modi`, mpi.c:1523-1559. -/
def modi (S : Store) (g : Grant) (r a vi : Nat) : Res :=
  match mpiCmpi (S a) vi with
  | .eq => some (thenPlus (mpiSeti S g r 0) r (fun _ => true))
  | .lt => some (modLess S g r a)
  | .gt => (mpiModi S g r a vi).map fun s => thenPlus s r (fun s => (s a).plus)

/-- `bfdev_mpi_seti`, mpi.c:1689-1701. -/
def seti (S : Store) (g : Grant) (d vi : Nat) : Store × Code := thenPlus (mpiSeti S g d vi) d (fun _ => true)

/-- `bfdev_mpi_set`, mpi.c:1703-1715. -/
def set (S : Store) (g : Grant) (d s : Nat) : Store × Code := thenPlus (mpiSet S g d s) d (fun t => (t s).plus)

/-- `bfdev_mpi_import`, mpi.c:1717-1730. -/
def import_ (S : Store) (g : Grant) (d : Nat) (l : List Nat) (sign : Bool) : Store × Code := thenPlus (mpiCopy S g d l) d (fun _ => sign)

/-- `BFDEV_MPI_INIT`, mpi.h:30-36. -/
def init : Mpi := ⟨[], 0, true⟩

/-- `bfdev_mpi_release`, mpi.c:1748-1752; the sign stays. -/
def release (S : Store) (d : Nat) : Store := store S d 0 []

end Bfdev.Mpi

import Verif.Common.Mem
import Verif.Scan.Model
/-!
Model of `include/bfdev/asm-generic/dword.h` and `src/dword.c`. Machine words are naturals below 2^64 and every operation is reduced.
Results are returned; the C functions store them through the pointers that are not NULL and return at once when both are.
-/
namespace Bfdev.Dword

/-- `BFDEV_DWORD_SIZE`, dword.h:16-19 (half words of 32 bits). -/
def half : Nat := 4294967296

/-- `BFDEV_DWORD_LOWER`, dword.h:21-22. -/
def lower (v : Nat) : Nat := v % half
/-- `BFDEV_DWORD_HIGHER`, dword.h:24-25. -/
def higher (v : Nat) : Nat := v / half

/-- `v << n` for `n < 64`. -/
def shl (v n : Nat) : Nat := w64 (v * 2 ^ n)
/-- `v >> n` for `n < 64`. -/
def shr (v n : Nat) : Nat := v / 2 ^ n

/-- `bfdev_dword_addd`, dword.h:27-41: high and low word. -/
def addd (ah al bh bl : Nat) : Nat × Nat :=
  let x := w64 (al + bl)
  (w64 (w64 (ah + bh) + if x < al then 1 else 0), x)

/-- `bfdev_sub_ddmmss`, dword.h:43-57: high and low word. -/
def subd (ah al bh bl : Nat) : Nat × Nat :=
  let x := wsub al bl
  (wsub (wsub ah bh) (if x > al then 1 else 0), x)

/-- `bfdev_umul_ppmm`, dword.h:59-87: high and low word. -/
def umul (va vb : Nat) : Nat × Nat :=
  let ul := lower va
  let vl := lower vb
  let uh := higher va
  let vh := higher vb
  let x0 := w64 (ul * vl)
  let x1 := w64 (ul * vh)
  let x2 := w64 (uh * vl)
  let x3 := w64 (uh * vh)
  let x1 := w64 (x1 + higher x0)
  let x1 := w64 (x1 + x2)
  let x3 := if x1 < x2 then w64 (x3 + half) else x3
  let x2 := w64 (lower x1 * half)
  (w64 (x3 + higher x1), w64 (x2 + lower x0))

/-- The corrections of `bfdev_udiv_qrnnd` (dword.h:107-118 and 125-136): at most twice one less in the quotient and one divisor more in
the remainder, before `m` is taken off. -/
def fix (q r m div : Nat) : Nat × Nat :=
  if r < m then
    let q := wsub q 1
    let r := w64 (r + div)
    if r ≥ div then
      if r < m then (wsub q 1, wsub (w64 (r + div)) m)
      else (q, wsub r m)
    else (q, wsub r m)
  else (q, wsub r m)

/-- One half of `bfdev_udiv_qrnnd` (dword.h:102-118 and 120-136): the quotient digit and the running remainder after bringing down the
half word `next`. -/
def digit (sh next div d1 d0 : Nat) : Nat × Nat :=
  let r := sh % d1
  let q := sh / d1
  let m := w64 (q * d0)
  let r := w64 (r * half) ||| next
  fix q r m div

/-- `bfdev_udiv_qrnnd`, dword.h:89-141: quotient and remainder of a double word by a word. -/
def qrnnd (sh sl div : Nat) : Nat × Nat :=
  let d1 := higher div
  let d0 := lower div
  let a := digit sh (higher sl) div d1 d0
  let b := digit a.2 (lower sl) div d1 d0
  (w64 (a.1 * half) ||| b.1, b.2)

/-- `bfdev_dword_generic_udiv`, dword.c:14-63: quotient (low, high) and remainder; no result when the code stops at `BFDEV_BUG_ON`. -/
def udiv (n0 n1 div : Nat) : Option ((Nat × Nat) × Nat) :=
  if div > n1 then
    (Scan.clz (BitVec.ofNat 64 div)).map fun bm =>
      let div' := if bm ≠ 0 then shl div bm else div
      let n1' := if bm ≠ 0 then shl n1 bm ||| shr n0 (64 - bm) else n1
      let n0' := if bm ≠ 0 then shl n0 bm else n0
      let r := qrnnd n1' n0' div'
      ((r.1, 0), shr r.2 bm)
  else if div = 0 then none
  else
    (Scan.clz (BitVec.ofNat 64 div)).map fun bm =>
      if bm = 0 then
        let r := qrnnd (wsub n1 div) n0 div
        ((r.1, 1), shr r.2 bm)
      else
        let b := 64 - bm
        let div' := shl div bm
        let n2 := shr n1 b
        let n1' := shl n1 bm ||| shr n0 b
        let n0' := shl n0 bm
        let r1 := qrnnd n2 n1' div'
        let r := qrnnd r1.2 n0' div'
        ((r.1, r1.1), shr r.2 bm)

/-- The branch `bm == 0` of `bfdev_dword_generic_udivd`, dword.c:87-100: the quotient and the remainder (low, high). -/
def divdTop (n0 n1 d0 d1 : Nat) : Nat × (Nat × Nat) :=
  if n1 ≤ d1 ∧ n0 < d0 then (0, (n0, n1))
  else (1, ((subd n1 n0 d1 d0).2, (subd n1 n0 d1 d0).1))

/-- The branch `bm != 0`, dword.c:101-123. -/
def divdShift (n0 n1 d0 d1 bm : Nat) : Nat × (Nat × Nat) :=
  let b := 64 - bm
  let d1' := shl d1 bm ||| shr d0 b
  let d0' := shl d0 bm
  let n2 := shr n1 b
  let n1' := shl n1 bm ||| shr n0 b
  let n0' := shl n0 bm
  let qr := qrnnd n2 n1' d1'
  let m := umul qr.1 d0'
  let big : Bool := m.1 > qr.2 ∨ (m.1 = qr.2 ∧ m.2 > n0')
  let q0 := if big then wsub qr.1 1 else qr.1
  let m := if big then subd m.1 m.2 d1' d0' else m
  let r := subd qr.2 n0' m.1 m.2
  (q0, (shl r.1 b ||| shr r.2 bm, shr r.1 bm))

/-- `bfdev_dword_generic_udivd`, dword.c:65-131: quotient (low, high) and the two words of the remainder; a word that is never stored
stays `none`. -/
def udivd (n0 n1 d0 d1 : Nat) : Option ((Nat × Nat) × (Nat × Option Nat)) :=
  if d1 = 0 then (udiv n0 n1 d0).map fun r => (r.1, (r.2, none))
  else
    (Scan.clz (BitVec.ofNat 64 d1)).map fun bm =>
      let r := if bm = 0 then divdTop n0 n1 d0 d1 else divdShift n0 n1 d0 d1 bm
      ((r.1, 0), (r.2.1, some r.2.2))

end Bfdev.Dword

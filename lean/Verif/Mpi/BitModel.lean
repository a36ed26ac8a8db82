import Verif.Mpi.Model
import Verif.Bitmap.Model
/-!
Model of the bit operations of `src/mpi.c`: and, or, exclusive or, shifts, and the test, set and clear of one bit.

The operations work on the limbs as bitmaps. Memory is the block of the result after it was resized, followed by the limbs of the operands;
the pointer of an operand that is the result itself is the start of the block. New limbs of the block hold anything (`j`). The pointers are
taken after the block was resized, so none is dead. `none` is an access outside the memory, a `memcpy` between ranges that overlap in part,
or the `BFDEV_BUG_ON` abort.
-/
namespace Bfdev.Mpi
open Bitmap (Mem)

/-- Limbs as the words of a bitmap. -/
def toWords (l : List Nat) : Mem := l.map (BitVec.ofNat 64)
/-- The words of a bitmap as limbs. -/
def ofWords (m : Mem) : List Nat := m.map BitVec.toNat

/-- The block of an object after `mpi_resize` to `n` limbs (mpi.c:18, array.c: `bfdev_array_resize` keeps the old limbs and leaves the new ones as
they are). -/
def block (o : Mpi) (j : Nat → Nat) (n : Nat) : List Nat := (List.range n).map fun i => if i < o.limbs.length then o.limbs.getD i 0 else j i

/-- `mpa_copy`, mpi.c:35-40: `memcpy` of `n` limbs. Copying a range onto itself is taken as leaving it alone (`mpi_or` and `mpi_xor` do so when the
result is the longer operand). -/
def cpy (m : Mem) (d s n : Nat) : Option Mem :=
  if d + n ≤ m.length ∧ s + n ≤ m.length ∧ (d = s ∨ d + n ≤ s ∨ s + n ≤ d) then some (m.take d ++ ((m.drop s).take n ++ m.drop (d + n))) else none

/-- The number of bits of `n` limbs, handed over as an `unsigned int` (mpi.c:968 and others; bitmap.h declares the parameter). -/
def bitsOf (n : Nat) : Nat := n * 64 % 2 ^ 32

/-- `mpi_and`, mpi.c:945-973. -/
def mpiAnd (S : Store) (g : Grant) (j : Nat → Nat) (d a b : Nat) : Res :=
  let la := (S a).limbs
  let lb := (S b).limbs
  let length := min la.length lb.length
  if length = 0 then some (mpiSeti S g d 0)
  else
    match fit (S d) (g.obj d) length with
    | none => some (S, .nomem)
    | some (cap, _) =>
      let m := toWords (block (S d) j length ++ (la ++ lb))
      let ptra := if d = a then 0 else length
      let ptrb := if d = b then 0 else length + la.length
      (Bitmap.bmAnd false m 0 ptra ptrb (bitsOf length)).map fun r => (store S d cap (strip (ofWords (r.1.take length))), .ok)

/-- `mpi_or`, mpi.c:975-1012. -/
def mpiOr (S : Store) (g : Grant) (j : Nat → Nat) (d a b : Nat) : Res :=
  let la := (S a).limbs
  let lb := (S b).limbs
  let length := max la.length lb.length
  if length = 0 then some (mpiSeti S g d 0)
  else
    match fit (S d) (g.obj d) length with
    | none => some (S, .nomem)
    | some (cap, _) =>
      let m := toWords (block (S d) j length ++ (la ++ lb))
      let ptra := if d = a then 0 else length
      let ptrb := if d = b then 0 else length + la.length
      (Bitmap.bmOr false m 0 ptra ptrb (bitsOf (min la.length lb.length))).bind fun m =>
      let s := if la.length < lb.length then (ptrb, lb.length, la.length) else (ptra, la.length, lb.length)
      (cpy m s.2.2 (s.1 + s.2.2) (s.2.1 - s.2.2)).bind fun m =>
      let l := ofWords (m.take length)
      if (strip l).length ≠ l.length then none else some (store S d cap (strip l), .ok)

/-- `mpi_xor`, mpi.c:1014-1051. -/
def mpiXor (S : Store) (g : Grant) (j : Nat → Nat) (d a b : Nat) : Res :=
  let la := (S a).limbs
  let lb := (S b).limbs
  let length := max la.length lb.length
  if length = 0 then some (mpiSeti S g d 0)
  else
    match fit (S d) (g.obj d) length with
    | none => some (S, .nomem)
    | some (cap, _) =>
      let m := toWords (block (S d) j length ++ (la ++ lb))
      let ptra := if d = a then 0 else length
      let ptrb := if d = b then 0 else length + la.length
      (Bitmap.bmXor false m 0 ptra ptrb (bitsOf (min la.length lb.length))).bind fun m =>
      let s := if la.length < lb.length then (ptrb, lb.length, la.length) else (ptra, la.length, lb.length)
      (cpy m s.2.2 (s.1 + s.2.2) (s.2.1 - s.2.2)).map fun m => (store S d cap (strip (ofWords (m.take length))), .ok)

/-- `BFDEV_BITS_TO_LONG` of a 64-bit count (bitops.h:45, math.h:46-48): the addition wraps. -/
def limbsFor (shift : Nat) : Nat := w64 (shift + 63) / 64

/-- `mpi_shli`, mpi.c:1053-1087. The bitmap shift takes the distance as an `unsigned int`. -/
def mpiShli (S : Store) (g : Grant) (j : Nat → Nat) (d a shift : Nat) : Res :=
  if shift = 0 then some (mpiSet S g d a)
  else
    let la := (S a).limbs
    if la.length = 0 then some (mpiSeti S g d 0)
    else
      let rem := limbsFor shift
      let length := la.length + rem
      match fit (S d) (g.obj d) length with
      | none => some (S, .nomem)
      | some (cap, _) =>
        let m := toWords (block (S d) j length ++ la)
        (if d ≠ a then cpy m 0 length la.length else some m).bind fun m =>
        (Bitmap.zeroWords rem m la.length).bind fun m =>
        (Bitmap.bmShl false m 0 0 (shift % 2 ^ 32) (bitsOf length)).map fun m => (store S d cap (strip (ofWords (m.take length))), .ok)

/-- `mpi_shri`, mpi.c:1089-1117. The bitmap shift takes the distance as an `unsigned int`. -/
def mpiShri (S : Store) (g : Grant) (j : Nat → Nat) (d a shift : Nat) : Res :=
  if shift = 0 then some (mpiSet S g d a)
  else
    let la := (S a).limbs
    let length := la.length
    if length = 0 then some (mpiSeti S g d 0)
    else
      match fit (S d) (g.obj d) length with
      | none => some (S, .nomem)
      | some (cap, _) =>
        let m := toWords (block (S d) j length ++ la)
        (Bitmap.bmShr false m 0 (if d = a then 0 else length) (shift % 2 ^ 32) (bitsOf length)).map fun m =>
          (store S d cap (strip (ofWords (m.take length))), .ok)

/-- `bfdev_mpi_and`, mpi.c:1561-1574. -/
def and_ (S : Store) (g : Grant) (j : Nat → Nat) (d a b : Nat) : Res := (mpiAnd S g j d a b).map fun r => thenPlus r d fun _ => true
/-- `bfdev_mpi_or`, mpi.c:1576-1589. -/
def or_ (S : Store) (g : Grant) (j : Nat → Nat) (d a b : Nat) : Res := (mpiOr S g j d a b).map fun r => thenPlus r d fun _ => true
/-- `bfdev_mpi_xor`, mpi.c:1591-1604. -/
def xor_ (S : Store) (g : Grant) (j : Nat → Nat) (d a b : Nat) : Res := (mpiXor S g j d a b).map fun r => thenPlus r d fun _ => true
/-- `bfdev_mpi_shli`, mpi.c:1606-1619. -/
def shli (S : Store) (g : Grant) (j : Nat → Nat) (d a shift : Nat) : Res := (mpiShli S g j d a shift).map fun r => thenPlus r d fun s => (s a).plus
/-- `bfdev_mpi_shri`, mpi.c:1621-1634. -/
def shri (S : Store) (g : Grant) (j : Nat → Nat) (d a shift : Nat) : Res := (mpiShri S g j d a shift).map fun r => thenPlus r d fun s => (s a).plus

/-- `bfdev_mpi_btesti`, mpi.c:1636-1650; `bfdev_bit_test` takes the bit number as an `unsigned int`. -/
def btesti (o : Mpi) (bit : Nat) : Option Bool :=
  if bit / 64 ≥ o.limbs.length then some false else Bitmap.bitTest (toWords o.limbs) 0 (bit % 2 ^ 32)

/-- `mpi_extend`, mpi.c:441-460. -/
def mpiExtend (S : Store) (g : Grant) (d length : Nat) : Store × Code :=
  if (S d).limbs.length ≥ length then (S, .ok)
  else
    match fit (S d) (g.obj d) length with
    | none => (S, .nomem)
    | some (cap, _) => (store S d cap ((S d).limbs ++ List.replicate (length - (S d).limbs.length) 0), .ok)

/-- `bfdev_mpi_bseti`, mpi.c:1652-1668; `bfdev_bit_set` takes the bit number as an `unsigned int`. -/
def bseti (S : Store) (g : Grant) (d bit : Nat) : Res :=
  let r := mpiExtend S g d (bit / 64 + 1)
  if r.2 ≠ .ok then some r
  else (Bitmap.bitSet (toWords (r.1 d).limbs) 0 (bit % 2 ^ 32)).map fun m => (store r.1 d (r.1 d).cap (ofWords m), .ok)

/-- `bfdev_mpi_bclri`, mpi.c:1670-1688; `bfdev_bit_clr` takes the bit number as an `unsigned int`. -/
def bclri (S : Store) (d bit : Nat) : Res :=
  if bit / 64 ≥ (S d).limbs.length then some (S, .ok)
  else (Bitmap.bitClr (toWords (S d).limbs) 0 (bit % 2 ^ 32)).map fun m => (store S d (S d).cap (strip (ofWords m)), .ok)

/-- `bfdev_mpi_data`, mpi.c:1732-1746: the array a caller reads, which for a zero is the constant `mpi_zero`, and the sign. -/
def data (o : Mpi) : List Nat × Bool := (if o.limbs.length = 0 then [0] else o.limbs, o.plus)

end Bfdev.Mpi

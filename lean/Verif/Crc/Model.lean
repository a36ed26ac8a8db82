import Verif.Common.Loop
import Verif.Swab.Model
/-!
Model of the CRC functions: the table generator `scripts/gen-crc.c`, the loops of `include/bfdev/crypto/crc-inline.h` and
`include/bfdev/crypto/crc4-inline.h`, and the table parameters of `scripts/CMakeLists.txt`. Little-endian target. A table of several rows is the flat
list of its entries, row by row, 256 to a row.
-/
namespace Bfdev.Crc
open Swab (swab16 swab64 getLe32)

/-! ### Table generator -/

/-- `crc = (crc >> 1) ^ ((crc & 1) ? poly : 0)`, gen-crc.c:38. -/
def shiftLe {w : Nat} (poly crc : BitVec w) : BitVec w := (crc >>> 1) ^^^ (if crc.getLsbD 0 then poly else 0)

/-- `table[0][count + index] = crc ^ table[0][index]`, gen-crc.c:40 and 65. -/
def fillEntry {w : Nat} (crc : BitVec w) (count index : Nat) (t : List (BitVec w)) : Option (List (BitVec w)) :=
  t[index]?.bind fun x => setIdx t (count + index) (crc ^^^ x)

/-- One round of the first loop for little endian, gen-crc.c:37-41; round `k` has `count = 128 >> k`. -/
def roundLe {w : Nat} (poly : BitVec w) (k : Nat) (s : BitVec w × List (BitVec w)) : Option (BitVec w × List (BitVec w)) :=
  let count := 128 >>> k
  let crc := shiftLe poly s.1
  (forN (256 / (2 * count)) (fun j => fillEntry crc count (j * (2 * count))) s.2).map fun t => (crc, t)

/-- One round of the inner second loop for little endian, gen-crc.c:45-48; `i` counts from 0, `index` from 1. -/
def rowLe {w : Nat} (count i : Nat) (s : BitVec w × List (BitVec w)) : Option (BitVec w × List (BitVec w)) :=
  s.2[(s.1 &&& 0xff).toNat]?.bind fun x =>
  let crc := x ^^^ (s.1 >>> 8)
  (setIdx s.2 ((i + 1) * 256 + count) crc).map fun t => (crc, t)

/-- `table_generic` for little endian, gen-crc.c:29-51. -/
def genLe {w : Nat} (poly : BitVec w) (rows : Nat) : Option (List (BitVec w)) :=
  (forN 8 (roundLe poly) (1, List.replicate (256 * rows) 0)).bind fun s =>
  forN 256 (fun count t => t[count]?.bind fun crc => (forN (rows - 1) (rowLe count) (crc, t)).map (·.2)) s.2

/-- `crc = (crc << 1) ^ ((crc & (1ULL << (GENCRC_BITS - 1))) ? poly : 0)`, gen-crc.c:63. -/
def shiftBe {w : Nat} (poly crc : BitVec w) : BitVec w := (crc <<< 1) ^^^ (if crc.msb then poly else 0)

/-- One round of the first loop for big endian, gen-crc.c:62-66; round `k` has `count = 1 << k`. -/
def roundBe {w : Nat} (poly : BitVec w) (k : Nat) (s : BitVec w × List (BitVec w)) : Option (BitVec w × List (BitVec w)) :=
  let count := 1 <<< k
  let crc := shiftBe poly s.1
  (forN count (fillEntry crc count) s.2).map fun t => (crc, t)

/-- One round of the inner second loop for big endian, gen-crc.c:70-73. -/
def rowBe {w : Nat} (count i : Nat) (s : BitVec w × List (BitVec w)) : Option (BitVec w × List (BitVec w)) :=
  s.2[((s.1 >>> (w - 8)) &&& 0xff).toNat]?.bind fun x =>
  let crc := x ^^^ (s.1 <<< 8)
  (setIdx s.2 ((i + 1) * 256 + count) crc).map fun t => (crc, t)

/-- `table_generic` for big endian, gen-crc.c:53-76. -/
def genBe {w : Nat} (poly : BitVec w) (rows : Nat) : Option (List (BitVec w)) :=
  (forN 8 (roundBe poly) (1#w <<< (w - 1), List.replicate (256 * rows) 0)).bind fun s =>
  forN 256 (fun count t => t[count]?.bind fun crc => (forN (rows - 1) (rowBe count) (crc, t)).map (·.2)) s.2

/-! ### The checksum loops -/

/-- `BFDEV_CRC_BYTE`, crc-inline.h:17-23. -/
def crcByte {w : Nat} (t : List (BitVec w)) (crc : BitVec w) (data : Byte) : Option (BitVec w) :=
  t[((crc ^^^ data.setWidth w) &&& 0xff).toNat]?.map fun x => x ^^^ (crc >>> 8)

/-- `while (len--)` over single bytes, crc-inline.h:31-32 and 76-77. -/
def bytes {w : Nat} (t : List (BitVec w)) : Nat → List Byte → BitVec w → Option (BitVec w)
  | 0, _, crc => some crc
  | _ + 1, [], _ => none
  | len + 1, d :: src, crc => (crcByte t crc d).bind (bytes t len src)

/-- `BFDEV_CRC_INLINE` without `BFDEV_CRC_EXTEND`, crc-inline.h:25-35. -/
def inlinePlain {w : Nat} (sw : BitVec w → BitVec w) (t : List (BitVec w)) (src : List Byte) (len : Nat) (crc : BitVec w) : Option (BitVec w) :=
  (bytes t len src (sw crc)).map sw

/-- The loop up to the first aligned address, crc-inline.h:47-50. -/
def head {w : Nat} (t : List (BitVec w)) : Nat → Nat → List Byte → BitVec w → Option (Nat × List Byte × BitVec w)
  | 0, _, src, crc => some (0, src, crc)
  | len + 1, addr, src, crc =>
    if addr % 4 = 0 then some (len + 1, src, crc)
    else
      match src with
      | [] => none
      | d :: src => (crcByte t crc d).bind (head t len (addr + 1) src)

/-- `table[row][(value >> sh) & 0xff]`, crc-inline.h:59-66. -/
def look {w : Nat} (t : List (BitVec w)) (row : Nat) (value : BitVec 32) (sh : Nat) : Option (BitVec w) :=
  t[row * 256 + ((value >>> sh) &&& 0xff).toNat]?

/-- Body of the eight-byte loop, crc-inline.h:53-67. `value[0]` is the 32-bit combination of four bytes with the 32-bit conversion of `crc`. -/
def slice {w : Nat} (t : List (BitVec w)) (src : List Byte) (crc : BitVec w) : Option (BitVec w) :=
  (getLe32 src 0).bind fun a =>
  (getLe32 src 4).bind fun v1 =>
  let v0 := a ^^^ crc.setWidth 32
  (look t 7 v0 0).bind fun x7 =>
  (look t 6 v0 8).bind fun x6 =>
  (look t 5 v0 16).bind fun x5 =>
  (look t 4 v0 24).bind fun x4 =>
  (look t 3 v1 0).bind fun x3 =>
  (look t 2 v1 8).bind fun x2 =>
  (look t 1 v1 16).bind fun x1 =>
  (look t 0 v1 24).map fun x0 => x7 ^^^ x6 ^^^ x5 ^^^ x4 ^^^ x3 ^^^ x2 ^^^ x1 ^^^ x0

/-- The eight-byte loop, crc-inline.h:52-68. -/
def slices {w : Nat} (t : List (BitVec w)) : Nat → List Byte → BitVec w → Option (Nat × List Byte × BitVec w)
  | len + 8, src, crc => (slice t src crc).bind (slices t len (src.drop 8))
  | len, src, crc => some (len, src, crc)

/-- `BFDEV_CRC_INLINE` with `BFDEV_CRC_EXTEND`, crc-inline.h:37-80; `addr` is the address of the data. -/
def inline {w : Nat} (sw : BitVec w → BitVec w) (t : List (BitVec w)) (addr : Nat) (src : List Byte) (len : Nat) (crc : BitVec w) : Option (BitVec w) :=
  (head t len addr src (sw crc)).bind fun (len, src, crc) =>
  (slices t len src crc).bind fun (len, src, crc) =>
  (bytes t len src crc).map sw

/-- `bfdev_cpu_to_le*` on a little-endian target, and the cast of crc7 and crc8. -/
def same {w : Nat} (v : BitVec w) : BitVec w := v

/-- A checksum: the data's address, the data, its length and the previous value. -/
abbrev Fn (w : Nat) := Nat → List Byte → Nat → BitVec w → Option (BitVec w)

/-- A little-endian checksum with its generated table, and a big-endian one, whose table and state are stored swapped. -/
def mkLe {w : Nat} (poly : BitVec w) : Fn w := fun addr src len crc => (genLe poly 8).bind fun t => inline same t addr src len crc
def mkBe {w : Nat} (sw : BitVec w → BitVec w) (poly : BitVec w) : Fn w := fun addr src len crc =>
  (genBe poly 8).bind fun t => inline sw (t.map sw) addr src len crc
/-- The same without `BFDEV_CRC_EXTEND`: one row, `scripts/CMakeLists.txt`:35-39. -/
def mkLe1 {w : Nat} (poly : BitVec w) : Fn w := fun _ src len crc => (genLe poly 1).bind fun t => inlinePlain same t src len crc
def mkBe1 {w : Nat} (sw : BitVec w → BitVec w) (poly : BitVec w) : Fn w := fun _ src len crc =>
  (genBe poly 1).bind fun t => inlinePlain sw (t.map sw) src len crc

/-- `bfdev_crc7`, crc7.c:10-14, `scripts/CMakeLists.txt`:41-46. -/
def crc7 : Fn 8 := mkBe same 0x12
/-- `bfdev_crc8`, crc8.c:10-14, `scripts/CMakeLists.txt`:48-53. -/
def crc8 : Fn 8 := mkBe same 0x07
/-- `bfdev_crc16`, crc16.c:10-14, `scripts/CMakeLists.txt`:55-60. -/
def crc16 : Fn 16 := mkLe 0xa001
/-- `bfdev_crc_ccitt`, crc-ccitt.c:10-14, `scripts/CMakeLists.txt`:62-67. -/
def crcCcitt : Fn 16 := mkLe 0x8408
/-- `bfdev_crc_itut`, crc-itut.c:10-14, `scripts/CMakeLists.txt`:69-74. -/
def crcItut : Fn 16 := mkBe swab16 0x1021
/-- `bfdev_crc_t10dif`, crc-t10dif.c:10-14, `scripts/CMakeLists.txt`:76-81. -/
def crcT10dif : Fn 16 := mkBe swab16 0x8bb7
/-- `bfdev_crc32`, crc32.c:10-14, `scripts/CMakeLists.txt`:83-88. -/
def crc32 : Fn 32 := mkLe 0xedb88320
/-- `bfdev_crc64`, crc64.c:10-14, `scripts/CMakeLists.txt`:90-95. -/
def crc64 : Fn 64 := mkBe swab64 0x42f0e1eba9ea3693
/-- `bfdev_crc_rocksoft`, crc-rocksoft.c:10-14, `scripts/CMakeLists.txt`:97-102. -/
def crcRocksoft : Fn 64 := mkLe 0x9a6c9329ac4bc9b5

/-! ### CRC-4 -/

/-- `bfdev_crc4_table`, crc4-inline.h:17-23. -/
def crc4Table : List Byte := [0x00, 0x07, 0x0e, 0x09, 0x0b, 0x0c, 0x05, 0x02, 0x01, 0x06, 0x0f, 0x08, 0x0a, 0x0d, 0x04, 0x03]

/-- `bfdev_crc4_byte`, crc4-inline.h:25-37. -/
def crc4Byte (crc data : Byte) : Option Byte :=
  crc4Table[((crc ^^^ (data >>> 4)) &&& 0xf).toNat]?.bind fun crc => crc4Table[((crc ^^^ (data &&& 0xf)) &&& 0xf).toNat]?

/-- `bfdev_crc4_inline`, crc4-inline.h:39-57, for the second loop; `bits < 64`, so that the mask is `2^bits - 1` cut to a byte. -/
def crc4Tail : Nat → Nat → List Byte → Byte → Option Byte
  | 0, _, _, _ => none
  | fuel + 1, bits, src, crc =>
    if min bits 8 = 0 then some crc
    else
      match src with
      | [] => none
      | d :: src => (crc4Byte crc (BitVec.ofNat 8 (2 ^ bits - 1) &&& d)).bind (crc4Tail fuel (bits - min bits 8) src)

/-- `bfdev_crc4_inline`, crc4-inline.h:39-57. -/
def crc4Loop : Nat → List Byte → Byte → Option Byte
  | bits + 32, src, crc =>
    match src with
    | a :: b :: c :: d :: src =>
      (crc4Byte crc a).bind fun crc => (crc4Byte crc b).bind fun crc => (crc4Byte crc c).bind fun crc => (crc4Byte crc d).bind (crc4Loop bits src)
    | _ => none
  | bits, src, crc => crc4Tail 5 bits src crc

/-- `bfdev_crc4`, crc4.c:10-14; the length is in bits. -/
def crc4 (src : List Byte) (bits : Nat) (crc : Byte) : Option Byte := crc4Loop bits src crc

end Bfdev.Crc

import Verif.Bitrev.Model
import Verif.Common.Mem
/-!
Model of `include/bfdev/swab.h`, `include/bfdev/byteorder/little-endian.h` and `include/bfdev/asm-generic/unaligned.h` on a little-endian target. The
compiler's `__builtin_bswap*` (used where available) are documented to do the same as the constant variants modelled here.
-/
namespace Bfdev.Swab
open Bitrev (orTerms)

/-- `bfdev_swab16_const`, swab.h:20-23: mask, left shift?, distance. -/
def swab16 (v : BitVec 16) : BitVec 16 := orTerms [(0x00ff, true, 8), (0xff00, false, 8)] v
/-- `bfdev_swab32_const`, swab.h:25-30. -/
def swab32 (v : BitVec 32) : BitVec 32 := orTerms [(0x000000ff, true, 24), (0x0000ff00, true, 8), (0x00ff0000, false, 8), (0xff000000, false, 24)] v
/-- `bfdev_swab64_const`, swab.h:32-41. -/
def swab64 (v : BitVec 64) : BitVec 64 :=
  orTerms [(0x00000000000000ff, true, 56), (0x000000000000ff00, true, 40), (0x0000000000ff0000, true, 24), (0x00000000ff000000, true, 8),
    (0x000000ff00000000, false, 8), (0x0000ff0000000000, false, 24), (0x00ff000000000000, false, 40), (0xff00000000000000, false, 56)] v
/-- `bfdev_swahb32_const`, swab.h:43-46. -/
def swahb32 (v : BitVec 32) : BitVec 32 := orTerms [(0x00ff00ff, true, 8), (0xff00ff00, false, 8)] v
/-- `bfdev_swahw32_const`, swab.h:48-51. -/
def swahw32 (v : BitVec 32) : BitVec 32 := orTerms [(0x0000ffff, true, 16), (0xffff0000, false, 16)] v
/-- `bfdev_swahb64_const`, swab.h:53-56. -/
def swahb64 (v : BitVec 64) : BitVec 64 := orTerms [(0x00ff00ff00ff00ff, true, 8), (0xff00ff00ff00ff00, false, 8)] v
/-- `bfdev_swahw64_const`, swab.h:58-61. -/
def swahw64 (v : BitVec 64) : BitVec 64 := orTerms [(0x0000ffff0000ffff, true, 16), (0xffff0000ffff0000, false, 16)] v
/-- `bfdev_swahl64_const`, swab.h:63-66. -/
def swahl64 (v : BitVec 64) : BitVec 64 := orTerms [(0x00000000ffffffff, true, 32), (0xffffffff00000000, false, 32)] v

/-- `bfdev_swab16_array` and its 32- and 64-bit relatives, swab.h:512-547: `while (count--) { swab(buff); buff++; }`. -/
def swabArray {w : Nat} (f : BitVec w → BitVec w) : List (BitVec w) → Nat → Option (List (BitVec w))
  | buff, 0 => some buff
  | [], _ + 1 => none
  | x :: buff, count + 1 => (swabArray f buff count).map (f x :: ·)

/-- The bytes of a word in memory, least significant first (the target is little-endian). -/
def leBytes : Nat → Nat → List Byte
  | 0, _ => []
  | n + 1, v => BitVec.ofNat 8 v :: leBytes n (v / 256)

/-- The word that the bytes stand for on the target. -/
def ofLe : List Byte → Nat
  | [] => 0
  | b :: bs => b.toNat + 256 * ofLe bs

/-- `bfdev_arch_unaligned_get_type`, unaligned.h:16-20: read through a packed pointer. -/
def getType (n : Nat) (m : List Byte) (p : Nat) : Option (BitVec (8 * n)) := (rd m p n).map (fun bs => BitVec.ofNat (8 * n) (ofLe bs))
/-- `bfdev_arch_unaligned_set_type`, unaligned.h:24-28. -/
def setType (n : Nat) (m : List Byte) (p : Nat) (v : BitVec (8 * n)) : Option (List Byte) := wr m p (leBytes n v.toNat)

/-- `bfdev_arch_unaligned_get_le16`, unaligned.h (`bfdev_le16_to_cpu` is the identity, little-endian.h). -/
def getLe16 (m : List Byte) (p : Nat) : Option (BitVec 16) := getType 2 m p
def getLe32 (m : List Byte) (p : Nat) : Option (BitVec 32) := getType 4 m p
def getLe64 (m : List Byte) (p : Nat) : Option (BitVec 64) := getType 8 m p
/-- `bfdev_arch_unaligned_set_le16 .. le64`, unaligned.h. -/
def setLe16 (m : List Byte) (p : Nat) (v : BitVec 16) : Option (List Byte) := setType 2 m p v
def setLe32 (m : List Byte) (p : Nat) (v : BitVec 32) : Option (List Byte) := setType 4 m p v
def setLe64 (m : List Byte) (p : Nat) (v : BitVec 64) : Option (List Byte) := setType 8 m p v
/-- `bfdev_arch_unaligned_get_be16 .. be64`, unaligned.h: `bfdev_be16_to_cpu` swaps. -/
def getBe16 (m : List Byte) (p : Nat) : Option (BitVec 16) := (getType 2 m p).map swab16
def getBe32 (m : List Byte) (p : Nat) : Option (BitVec 32) := (getType 4 m p).map swab32
def getBe64 (m : List Byte) (p : Nat) : Option (BitVec 64) := (getType 8 m p).map swab64
/-- `bfdev_arch_unaligned_set_be16 .. be64`, unaligned.h. -/
def setBe16 (m : List Byte) (p : Nat) (v : BitVec 16) : Option (List Byte) := setType 2 m p (swab16 v)
def setBe32 (m : List Byte) (p : Nat) (v : BitVec 32) : Option (List Byte) := setType 4 m p (swab32 v)
def setBe64 (m : List Byte) (p : Nat) (v : BitVec 64) : Option (List Byte) := setType 8 m p (swab64 v)

end Bfdev.Swab

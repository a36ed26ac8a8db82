import Verif.Swab.Props
/-!
Model of `include/bfdev/byteorder.h`, `include/bfdev/byteorder/little-endian.h`, `include/bfdev/byteorder/big-endian.h`, `include/bfdev/asm-generic/byteorder.h`
and, for machines of either byte order, `include/bfdev/asm-generic/unaligned.h`. Memory is a list of bytes; `big` says that the machine keeps the most
significant byte of a word first.
-/
namespace Bfdev.Byteorder
open Swab (leBytes ofLe swab16 swab32 swab64)

/-- The bytes of a word as the machine stores them. -/
def image (big : Bool) (n : Nat) (v : BitVec (8 * n)) : List Byte := if big then (leBytes n v.toNat).reverse else leBytes n v.toNat

/-- A load through a typed pointer, aligned or packed, `bfdev_arch_unaligned_get_type`, unaligned.h:16-20; `none` outside the memory. -/
def load (big : Bool) (n : Nat) (m : List Byte) (p : Nat) : Option (BitVec (8 * n)) :=
  (rd m p n).map fun bs => BitVec.ofNat (8 * n) (ofLe (if big then bs.reverse else bs))

/-- A store through a typed pointer, aligned or packed, `bfdev_arch_unaligned_set_type`, unaligned.h:24-28. -/
def store (big : Bool) (n : Nat) (m : List Byte) (p : Nat) (v : BitVec (8 * n)) : Option (List Byte) := wr m p (image big n v)

/-- The conversions of one width that a header defines: the macros of a value (`bfdev_cpu_to_le16` and so on), the functions of a pointer to a value
(`…p`), and those that convert a value in place (`…s`). -/
structure Conv (n : Nat) where
  cpuToLe : BitVec (8 * n) → BitVec (8 * n)
  leToCpu : BitVec (8 * n) → BitVec (8 * n)
  cpuToBe : BitVec (8 * n) → BitVec (8 * n)
  beToCpu : BitVec (8 * n) → BitVec (8 * n)
  cpuToLeP : List Byte → Nat → Option (BitVec (8 * n))
  leToCpuP : List Byte → Nat → Option (BitVec (8 * n))
  cpuToBeP : List Byte → Nat → Option (BitVec (8 * n))
  beToCpuP : List Byte → Nat → Option (BitVec (8 * n))
  cpuToLeS : List Byte → Nat → Option (List Byte)
  leToCpuS : List Byte → Nat → Option (List Byte)
  cpuToBeS : List Byte → Nat → Option (List Byte)
  beToCpuS : List Byte → Nat → Option (List Byte)

/-- `bfdev_swab16p`, `bfdev_swab32p`, `bfdev_swab64p`, swab.h:260-300. -/
def swabP {n : Nat} (big : Bool) (swab : BitVec (8 * n) → BitVec (8 * n)) (m : List Byte) (p : Nat) : Option (BitVec (8 * n)) := (load big n m p).map swab

/-- `bfdev_swab16s`, `bfdev_swab32s`, `bfdev_swab64s`, swab.h:386-426: `*p = swabp(p)`. -/
def swabS {n : Nat} (big : Bool) (swab : BitVec (8 * n) → BitVec (8 * n)) (m : List Byte) (p : Nat) : Option (List Byte) := (swabP big swab m p).bind (store big n m p)

/-- little-endian.h:19-140, compiled for a machine of the byte order `big`; `do { (void)(x); } while (0)` does nothing. -/
def little {n : Nat} (big : Bool) (swab : BitVec (8 * n) → BitVec (8 * n)) : Conv n where
  cpuToLe x := x
  leToCpu x := x
  cpuToBe x := swab x
  beToCpu x := swab x
  cpuToLeP := load big n
  leToCpuP := load big n
  cpuToBeP := swabP big swab
  beToCpuP := swabP big swab
  cpuToLeS m _ := some m
  leToCpuS m _ := some m
  cpuToBeS := swabS big swab
  beToCpuS := swabS big swab

/-- big-endian.h:19-140, compiled for a machine of the byte order `big`. -/
def bigHdr {n : Nat} (big : Bool) (swab : BitVec (8 * n) → BitVec (8 * n)) : Conv n where
  cpuToLe x := swab x
  leToCpu x := swab x
  cpuToBe x := x
  beToCpu x := x
  cpuToLeP := swabP big swab
  leToCpuP := swabP big swab
  cpuToBeP := load big n
  beToCpuP := load big n
  cpuToLeS := swabS big swab
  leToCpuS := swabS big swab
  cpuToBeS m _ := some m
  beToCpuS m _ := some m

/-- The header made for the byte order of the machine. -/
def matching {n : Nat} (big : Bool) (swab : BitVec (8 * n) → BitVec (8 * n)) : Conv n := if big then bigHdr big swab else little big swab

/-- asm-generic/byteorder.h:10: the header every machine gets. -/
def generic {n : Nat} (big : Bool) (swab : BitVec (8 * n) → BitVec (8 * n)) : Conv n := little big swab

/-- `BFDEV_GENERIC_BYTEORDER_ARRAY`, asm-generic/byteorder.h:14-23: `size` iterations from `index` on, over arrays at `dest` and `src` in the same memory. -/
def array (big : Bool) (n : Nat) (f : BitVec (8 * n) → BitVec (8 * n)) (dest src : Nat) : Nat → Nat → List Byte → Option (List Byte)
  | 0, _, m => some m
  | size + 1, index, m => (load big n m (src + n * index)).bind fun v => (store big n m (dest + n * index) (f v)).bind (array big n f dest src size (index + 1))

/-- `bfdev_cpu_to_le16_array` to `bfdev_cpu_to_le64_array`, asm-generic/byteorder.h:25-38. -/
def cpuToLeArray {n : Nat} (big : Bool) (c : Conv n) (m : List Byte) (dest src size : Nat) : Option (List Byte) := array big n c.cpuToLe dest src size 0 m

/-- `bfdev_le16_to_cpu_array` to `bfdev_le64_to_cpu_array`, asm-generic/byteorder.h:40-53. -/
def leToCpuArray {n : Nat} (big : Bool) (c : Conv n) (m : List Byte) (dest src size : Nat) : Option (List Byte) := array big n c.leToCpu dest src size 0 m

/-- `bfdev_arch_unaligned_get_le16` to `_le64`, unaligned.h:130-156. -/
def getLe {n : Nat} (big : Bool) (c : Conv n) (m : List Byte) (p : Nat) : Option (BitVec (8 * n)) := (load big n m p).map c.leToCpu
/-- `bfdev_arch_unaligned_set_le16` to `_le64`, unaligned.h:157-183. -/
def setLe {n : Nat} (big : Bool) (c : Conv n) (m : List Byte) (p : Nat) (v : BitVec (8 * n)) : Option (List Byte) := store big n m p (c.cpuToLe v)
/-- `bfdev_arch_unaligned_get_be16` to `_be64`, unaligned.h:184-210. -/
def getBe {n : Nat} (big : Bool) (c : Conv n) (m : List Byte) (p : Nat) : Option (BitVec (8 * n)) := (load big n m p).map c.beToCpu
/-- `bfdev_arch_unaligned_set_be16` to `_be64`, unaligned.h:212-238. -/
def setBe {n : Nat} (big : Bool) (c : Conv n) (m : List Byte) (p : Nat) (v : BitVec (8 * n)) : Option (List Byte) := store big n m p (c.cpuToBe v)

end Bfdev.Byteorder

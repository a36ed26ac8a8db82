/-
Model of `src/bitrev.c` and `include/bfdev/bitrev.h`.
-/
namespace Bfdev.Bitrev

/-- `bfdev_bitrev_byte_table`, src/bitrev.c:9-43. -/
def byteTable : List (BitVec 8) :=
  [0x00, 0x80, 0x40, 0xc0, 0x20, 0xa0, 0x60, 0xe0, 0x10, 0x90, 0x50, 0xd0, 0x30, 0xb0, 0x70, 0xf0,
   0x08, 0x88, 0x48, 0xc8, 0x28, 0xa8, 0x68, 0xe8, 0x18, 0x98, 0x58, 0xd8, 0x38, 0xb8, 0x78, 0xf8,
   0x04, 0x84, 0x44, 0xc4, 0x24, 0xa4, 0x64, 0xe4, 0x14, 0x94, 0x54, 0xd4, 0x34, 0xb4, 0x74, 0xf4,
   0x0c, 0x8c, 0x4c, 0xcc, 0x2c, 0xac, 0x6c, 0xec, 0x1c, 0x9c, 0x5c, 0xdc, 0x3c, 0xbc, 0x7c, 0xfc,
   0x02, 0x82, 0x42, 0xc2, 0x22, 0xa2, 0x62, 0xe2, 0x12, 0x92, 0x52, 0xd2, 0x32, 0xb2, 0x72, 0xf2,
   0x0a, 0x8a, 0x4a, 0xca, 0x2a, 0xaa, 0x6a, 0xea, 0x1a, 0x9a, 0x5a, 0xda, 0x3a, 0xba, 0x7a, 0xfa,
   0x06, 0x86, 0x46, 0xc6, 0x26, 0xa6, 0x66, 0xe6, 0x16, 0x96, 0x56, 0xd6, 0x36, 0xb6, 0x76, 0xf6,
   0x0e, 0x8e, 0x4e, 0xce, 0x2e, 0xae, 0x6e, 0xee, 0x1e, 0x9e, 0x5e, 0xde, 0x3e, 0xbe, 0x7e, 0xfe,
   0x01, 0x81, 0x41, 0xc1, 0x21, 0xa1, 0x61, 0xe1, 0x11, 0x91, 0x51, 0xd1, 0x31, 0xb1, 0x71, 0xf1,
   0x09, 0x89, 0x49, 0xc9, 0x29, 0xa9, 0x69, 0xe9, 0x19, 0x99, 0x59, 0xd9, 0x39, 0xb9, 0x79, 0xf9,
   0x05, 0x85, 0x45, 0xc5, 0x25, 0xa5, 0x65, 0xe5, 0x15, 0x95, 0x55, 0xd5, 0x35, 0xb5, 0x75, 0xf5,
   0x0d, 0x8d, 0x4d, 0xcd, 0x2d, 0xad, 0x6d, 0xed, 0x1d, 0x9d, 0x5d, 0xdd, 0x3d, 0xbd, 0x7d, 0xfd,
   0x03, 0x83, 0x43, 0xc3, 0x23, 0xa3, 0x63, 0xe3, 0x13, 0x93, 0x53, 0xd3, 0x33, 0xb3, 0x73, 0xf3,
   0x0b, 0x8b, 0x4b, 0xcb, 0x2b, 0xab, 0x6b, 0xeb, 0x1b, 0x9b, 0x5b, 0xdb, 0x3b, 0xbb, 0x7b, 0xfb,
   0x07, 0x87, 0x47, 0xc7, 0x27, 0xa7, 0x67, 0xe7, 0x17, 0x97, 0x57, 0xd7, 0x37, 0xb7, 0x77, 0xf7,
   0x0f, 0x8f, 0x4f, 0xcf, 0x2f, 0xaf, 0x6f, 0xef, 0x1f, 0x9f, 0x5f, 0xdf, 0x3f, 0xbf, 0x7f, 0xff]

/-- One line of a constant variant, `((value & mask) << shift)` (or `>>` when the flag is `false`), include/bfdev/bitrev.h:19. -/
def term {w : Nat} (v : BitVec w) (t : Nat × Bool × Nat) : BitVec w :=
  let x := v &&& BitVec.ofNat w t.1
  if t.2.1 then x <<< t.2.2 else x >>> t.2.2

/-- The disjunction of the lines of a constant variant. -/
def orTerms {w : Nat} (ts : List (Nat × Bool × Nat)) (v : BitVec w) : BitVec w :=
  ts.foldl (fun acc t => acc ||| term v t) 0

/-- The lines of `bfdev_bitrev8_const`, include/bfdev/bitrev.h:18-26: mask, left shift?, distance. -/
def terms8 : List (Nat × Bool × Nat) :=
  [(0x01, true, 7), (0x02, true, 5), (0x04, true, 3), (0x08, true, 1),
   (0x10, false, 1), (0x20, false, 3), (0x40, false, 5), (0x80, false, 7)]

/-- `bfdev_bitrev8_const`, include/bfdev/bitrev.h:18-26. -/
def bitrev8Const (v : BitVec 8) : BitVec 8 := orTerms terms8 v

/-- The lines of `bfdev_bitrev16_const`, include/bfdev/bitrev.h:28-44: mask, left shift?, distance. -/
def terms16 : List (Nat × Bool × Nat) :=
  [(0x0001, true, 15), (0x0002, true, 13), (0x0004, true, 11), (0x0008, true, 9),
   (0x0010, true, 7), (0x0020, true, 5), (0x0040, true, 3), (0x0080, true, 1),
   (0x0100, false, 1), (0x0200, false, 3), (0x0400, false, 5), (0x0800, false, 7),
   (0x1000, false, 9), (0x2000, false, 11), (0x4000, false, 13), (0x8000, false, 15)]

/-- `bfdev_bitrev16_const`, include/bfdev/bitrev.h:28-44. -/
def bitrev16Const (v : BitVec 16) : BitVec 16 := orTerms terms16 v

/-- The lines of `bfdev_bitrev32_const`, include/bfdev/bitrev.h:46-78: mask, left shift?, distance. -/
def terms32 : List (Nat × Bool × Nat) :=
  [(0x00000001, true, 31), (0x00000002, true, 29), (0x00000004, true, 27), (0x00000008, true, 25),
   (0x00000010, true, 23), (0x00000020, true, 21), (0x00000040, true, 19), (0x00000080, true, 17),
   (0x00000100, true, 15), (0x00000200, true, 13), (0x00000400, true, 11), (0x00000800, true, 9),
   (0x00001000, true, 7), (0x00002000, true, 5), (0x00004000, true, 3), (0x00008000, true, 1),
   (0x00010000, false, 1), (0x00020000, false, 3), (0x00040000, false, 5), (0x00080000, false, 7),
   (0x00100000, false, 9), (0x00200000, false, 11), (0x00400000, false, 13), (0x00800000, false, 15),
   (0x01000000, false, 17), (0x02000000, false, 19), (0x04000000, false, 21), (0x08000000, false, 25),
   (0x10000000, false, 23), (0x20000000, false, 27), (0x40000000, false, 29), (0x80000000, false, 31)]

/-- `bfdev_bitrev32_const`, include/bfdev/bitrev.h:46-78. -/
def bitrev32Const (v : BitVec 32) : BitVec 32 := orTerms terms32 v

/-- The lines of `bfdev_bitrev64_const`, include/bfdev/bitrev.h:80-144: mask, left shift?, distance. -/
def terms64 : List (Nat × Bool × Nat) :=
  [(0x0000000000000001, true, 63), (0x0000000000000002, true, 61), (0x0000000000000004, true, 59), (0x0000000000000008, true, 57),
   (0x0000000000000010, true, 55), (0x0000000000000020, true, 53), (0x0000000000000040, true, 51), (0x0000000000000080, true, 49),
   (0x0000000000000100, true, 47), (0x0000000000000200, true, 45), (0x0000000000000400, true, 43), (0x0000000000000800, true, 41),
   (0x0000000000001000, true, 39), (0x0000000000002000, true, 37), (0x0000000000004000, true, 35), (0x0000000000008000, true, 33),
   (0x0000000000010000, true, 31), (0x0000000000020000, true, 29), (0x0000000000040000, true, 27), (0x0000000000080000, true, 25),
   (0x0000000000100000, true, 23), (0x0000000000200000, true, 21), (0x0000000000400000, true, 19), (0x0000000000800000, true, 17),
   (0x0000000001000000, true, 15), (0x0000000002000000, true, 13), (0x0000000004000000, true, 11), (0x0000000008000000, true, 9),
   (0x0000000010000000, true, 7), (0x0000000020000000, true, 5), (0x0000000040000000, true, 3), (0x0000000080000000, true, 1),
   (0x0000000100000000, false, 1), (0x0000000200000000, false, 3), (0x0000000400000000, false, 5), (0x0000000800000000, false, 7),
   (0x0000001000000000, false, 9), (0x0000002000000000, false, 11), (0x0000004000000000, false, 13), (0x0000008000000000, false, 15),
   (0x0000010000000000, false, 17), (0x0000020000000000, false, 19), (0x0000040000000000, false, 21), (0x0000080000000000, false, 25),
   (0x0000100000000000, false, 23), (0x0000200000000000, false, 27), (0x0000400000000000, false, 29), (0x0000800000000000, false, 31),
   (0x0001000000000000, false, 33), (0x0002000000000000, false, 35), (0x0004000000000000, false, 37), (0x0008000000000000, false, 39),
   (0x0010000000000000, false, 41), (0x0020000000000000, false, 43), (0x0040000000000000, false, 45), (0x0080000000000000, false, 47),
   (0x0100000000000000, false, 49), (0x0200000000000000, false, 51), (0x0400000000000000, false, 53), (0x0800000000000000, false, 55),
   (0x1000000000000000, false, 57), (0x2000000000000000, false, 59), (0x4000000000000000, false, 61), (0x8000000000000000, false, 63)]

/-- `bfdev_bitrev64_const`, include/bfdev/bitrev.h:80-144. -/
def bitrev64Const (v : BitVec 64) : BitVec 64 := orTerms terms64 v

/-- `bfdev_bitrev8_dynamic`, include/bfdev/bitrev.h:153-157 (`none`: read outside the table). -/
def bitrev8Dynamic (v : BitVec 8) : Option (BitVec 8) := byteTable[v.toNat]?

/-- `bfdev_bitrev16_dynamic`, include/bfdev/bitrev.h:159-164. -/
def bitrev16Dynamic (v : BitVec 16) : Option (BitVec 16) := do
  let lo ← bitrev8Dynamic ((v &&& 0xff).setWidth 8)
  let hi ← bitrev8Dynamic ((v >>> 8).setWidth 8)
  return (lo.setWidth 16 <<< 8) ||| hi.setWidth 16

/-- `bfdev_bitrev32_dynamic`, include/bfdev/bitrev.h:166-171. -/
def bitrev32Dynamic (v : BitVec 32) : Option (BitVec 32) := do
  let lo ← bitrev16Dynamic ((v &&& 0xffff).setWidth 16)
  let hi ← bitrev16Dynamic ((v >>> 16).setWidth 16)
  return (lo.setWidth 32 <<< 16) ||| hi.setWidth 32

/-- `bfdev_bitrev64_dynamic`, include/bfdev/bitrev.h:173-178. -/
def bitrev64Dynamic (v : BitVec 64) : Option (BitVec 64) := do
  let lo ← bitrev32Dynamic ((v &&& 0xffffffff).setWidth 32)
  let hi ← bitrev32Dynamic ((v >>> 32).setWidth 32)
  return (lo.setWidth 64 <<< 32) ||| hi.setWidth 64

end Bfdev.Bitrev

/-
Model of `src/popcount.c` and `include/bfdev/popcount.h`.
-/
namespace Bfdev.Popcount

/-- One line of the constant variants, e.g. include/bfdev/popcount.h:22: `value = (value & m) + ((value >> s) & m)`.  For the
32-bit variant the C expression is computed in 64 bits and cut to 32; no sum of masked fields exceeds the word. -/
def foldStep {w : Nat} (s : Nat) (m v : BitVec w) : BitVec w := (v &&& m) + ((v >>> s) &&& m)

/-- `bfdev_popcount8_const`, include/bfdev/popcount.h:19-26. -/
def popcount8Const (v : BitVec 8) : Nat :=
  let v := foldStep 1 0x55#8 v
  let v := foldStep 2 0x33#8 v
  let v := foldStep 4 0x0f#8 v
  v.toNat

/-- `bfdev_popcount16_const`, include/bfdev/popcount.h:28-36. -/
def popcount16Const (v : BitVec 16) : Nat :=
  let v := foldStep 1 0x5555#16 v
  let v := foldStep 2 0x3333#16 v
  let v := foldStep 4 0x0f0f#16 v
  let v := foldStep 8 0x00ff#16 v
  v.toNat

/-- `bfdev_popcount32_const`, include/bfdev/popcount.h:38-47. -/
def popcount32Const (v : BitVec 32) : Nat :=
  let v := foldStep 1 0x55555555#32 v
  let v := foldStep 2 0x33333333#32 v
  let v := foldStep 4 0x0f0f0f0f#32 v
  let v := foldStep 8 0x00ff00ff#32 v
  let v := foldStep 16 0x0000ffff#32 v
  v.toNat

/-- `bfdev_popcount64_const`, include/bfdev/popcount.h:49-59 (the final cast to `unsigned int` keeps values up to 64). -/
def popcount64Const (v : BitVec 64) : Nat :=
  let v := foldStep 1 0x5555555555555555#64 v
  let v := foldStep 2 0x3333333333333333#64 v
  let v := foldStep 4 0x0f0f0f0f0f0f0f0f#64 v
  let v := foldStep 8 0x00ff00ff00ff00ff#64 v
  let v := foldStep 16 0x0000ffff0000ffff#64 v
  let v := foldStep 32 0x00000000ffffffff#64 v
  (v.setWidth 32).toNat

/-- `(0x6996 >> value) & 1` after `value &= 0xf`, e.g. include/bfdev/popcount.h:65-66. -/
def nibbleParity {w : Nat} (v : BitVec w) : Bool := (0x6996 >>> (v &&& 0xf).toNat) % 2 == 1

/-- `bfdev_popparity8_const`, include/bfdev/popcount.h:61-67. -/
def popparity8Const (v : BitVec 8) : Bool :=
  let v := v ^^^ (v >>> 4)
  nibbleParity v

/-- `bfdev_popparity16_const`, include/bfdev/popcount.h:69-76. -/
def popparity16Const (v : BitVec 16) : Bool :=
  let v := v ^^^ (v >>> 8)
  let v := v ^^^ (v >>> 4)
  nibbleParity v

/-- `bfdev_popparity32_const`, include/bfdev/popcount.h:78-86. -/
def popparity32Const (v : BitVec 32) : Bool :=
  let v := v ^^^ (v >>> 16)
  let v := v ^^^ (v >>> 8)
  let v := v ^^^ (v >>> 4)
  nibbleParity v

/-- `bfdev_popparity64_const`, include/bfdev/popcount.h:88-97. -/
def popparity64Const (v : BitVec 64) : Bool :=
  let v := v ^^^ (v >>> 32)
  let v := v ^^^ (v >>> 16)
  let v := v ^^^ (v >>> 8)
  let v := v ^^^ (v >>> 4)
  nibbleParity v

/-- `bfdev_popcount_table`, src/popcount.c:9-75. -/
def popcountTable : List Nat :=
  [0, 1, 1, 2, 1, 2, 2, 3, 1, 2, 2, 3, 2, 3, 3, 4,
   1, 2, 2, 3, 2, 3, 3, 4, 2, 3, 3, 4, 3, 4, 4, 5,
   1, 2, 2, 3, 2, 3, 3, 4, 2, 3, 3, 4, 3, 4, 4, 5,
   2, 3, 3, 4, 3, 4, 4, 5, 3, 4, 4, 5, 4, 5, 5, 6,
   1, 2, 2, 3, 2, 3, 3, 4, 2, 3, 3, 4, 3, 4, 4, 5,
   2, 3, 3, 4, 3, 4, 4, 5, 3, 4, 4, 5, 4, 5, 5, 6,
   2, 3, 3, 4, 3, 4, 4, 5, 3, 4, 4, 5, 4, 5, 5, 6,
   3, 4, 4, 5, 4, 5, 5, 6, 4, 5, 5, 6, 5, 6, 6, 7,
   1, 2, 2, 3, 2, 3, 3, 4, 2, 3, 3, 4, 3, 4, 4, 5,
   2, 3, 3, 4, 3, 4, 4, 5, 3, 4, 4, 5, 4, 5, 5, 6,
   2, 3, 3, 4, 3, 4, 4, 5, 3, 4, 4, 5, 4, 5, 5, 6,
   3, 4, 4, 5, 4, 5, 5, 6, 4, 5, 5, 6, 5, 6, 6, 7,
   2, 3, 3, 4, 3, 4, 4, 5, 3, 4, 4, 5, 4, 5, 5, 6,
   3, 4, 4, 5, 4, 5, 5, 6, 4, 5, 5, 6, 5, 6, 6, 7,
   3, 4, 4, 5, 4, 5, 5, 6, 4, 5, 5, 6, 5, 6, 6, 7,
   4, 5, 5, 6, 5, 6, 6, 7, 5, 6, 6, 7, 6, 7, 7, 8]

/-- `bfdev_popparity_table`, src/popcount.c:77-143. -/
def popparityTable : List Bool :=
  [false, true, true, false, true, false, false, true,
   true, false, false, true, false, true, true, false,
   true, false, false, true, false, true, true, false,
   false, true, true, false, true, false, false, true,
   true, false, false, true, false, true, true, false,
   false, true, true, false, true, false, false, true,
   false, true, true, false, true, false, false, true,
   true, false, false, true, false, true, true, false,
   true, false, false, true, false, true, true, false,
   false, true, true, false, true, false, false, true,
   false, true, true, false, true, false, false, true,
   true, false, false, true, false, true, true, false,
   false, true, true, false, true, false, false, true,
   true, false, false, true, false, true, true, false,
   true, false, false, true, false, true, true, false,
   false, true, true, false, true, false, false, true,
   true, false, false, true, false, true, true, false,
   false, true, true, false, true, false, false, true,
   false, true, true, false, true, false, false, true,
   true, false, false, true, false, true, true, false,
   false, true, true, false, true, false, false, true,
   true, false, false, true, false, true, true, false,
   true, false, false, true, false, true, true, false,
   false, true, true, false, true, false, false, true,
   false, true, true, false, true, false, false, true,
   true, false, false, true, false, true, true, false,
   true, false, false, true, false, true, true, false,
   false, true, true, false, true, false, false, true,
   true, false, false, true, false, true, true, false,
   false, true, true, false, true, false, false, true,
   false, true, true, false, true, false, false, true,
   true, false, false, true, false, true, true, false]

/-- `bfdev_popcount8_dynamic`, include/bfdev/popcount.h:109-113 (`none`: read outside the table). -/
def popcount8Dynamic (v : BitVec 8) : Option Nat := popcountTable[v.toNat]?

/-- `bfdev_popcount16_dynamic`, include/bfdev/popcount.h:115-121. -/
def popcount16Dynamic (v : BitVec 16) : Option Nat := do
  let high := (v >>> 8).setWidth 8
  return (← popcount8Dynamic high) + (← popcount8Dynamic (v.setWidth 8))

/-- `bfdev_popcount32_dynamic`, include/bfdev/popcount.h:123-129. -/
def popcount32Dynamic (v : BitVec 32) : Option Nat := do
  let high := (v >>> 16).setWidth 16
  return (← popcount16Dynamic high) + (← popcount16Dynamic (v.setWidth 16))

/-- `bfdev_popcount64_dynamic`, include/bfdev/popcount.h:131-137. -/
def popcount64Dynamic (v : BitVec 64) : Option Nat := do
  let high := (v >>> 32).setWidth 32
  return (← popcount32Dynamic high) + (← popcount32Dynamic (v.setWidth 32))

/-- `bfdev_popparity8_dynamic`, include/bfdev/popcount.h:139-143. -/
def popparity8Dynamic (v : BitVec 8) : Option Bool := popparityTable[v.toNat]?

/-- `bfdev_popparity16_dynamic`, include/bfdev/popcount.h:145-151. -/
def popparity16Dynamic (v : BitVec 16) : Option Bool := do
  let high := (v >>> 8).setWidth 8
  return ((← popparity8Dynamic (v.setWidth 8)).toNat + (← popparity8Dynamic high).toNat) % 2 == 1

/-- `bfdev_popparity32_dynamic`, include/bfdev/popcount.h:153-159. -/
def popparity32Dynamic (v : BitVec 32) : Option Bool := do
  let high := (v >>> 16).setWidth 16
  return ((← popparity16Dynamic (v.setWidth 16)).toNat + (← popparity16Dynamic high).toNat) % 2 == 1

/-- `bfdev_popparity64_dynamic`, include/bfdev/popcount.h:161-167. -/
def popparity64Dynamic (v : BitVec 64) : Option Bool := do
  let high := (v >>> 32).setWidth 32
  return ((← popparity32Dynamic (v.setWidth 32)).toNat + (← popparity32Dynamic high).toNat) % 2 == 1

end Bfdev.Popcount

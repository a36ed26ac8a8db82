import Verif.Scan.Model
/-!
Model of `include/bfdev/bitfield.h` for masks of type `uint32_t` (`w = 32`) and `uint64_t`/`unsigned long` (`w = 64`), that is, types which C does not
promote. `none` is undefined behaviour: the scan of a zero mask.
-/
namespace Bfdev.Bitfield

/-- `bfdev_ffsuf(_mask)`: the mask is converted to `unsigned long`. -/
def shiftOf {w : Nat} (mask : BitVec w) : Option Nat := Scan.ffsuf (mask.setWidth 64)

/-- `BFDEV_FIELD_GET`, bitfield.h:19-22. -/
def fieldGet {w : Nat} (mask reg : BitVec w) : Option (BitVec w) := (shiftOf mask).map (fun s => (reg &&& mask) >>> s)

/-- `BFDEV_FIELD_PREP`, bitfield.h:29-32. -/
def fieldPrep {w : Nat} (mask val : BitVec w) : Option (BitVec w) := (shiftOf mask).map (fun s => (val <<< s) &&& mask)

/-- `BFDEV_FIELD_FIT`, bitfield.h:39-42. -/
def fieldFit {w : Nat} (mask val : BitVec w) : Option Bool := (shiftOf mask).map (fun s => ((val <<< s) &&& ~~~mask) == 0)

/-- `BFDEV_FIELD_MAX`, bitfield.h:48-51. -/
def fieldMax {w : Nat} (mask : BitVec w) : Option (BitVec w) := (shiftOf mask).map (fun s => mask >>> s)

end Bfdev.Bitfield

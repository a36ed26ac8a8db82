import Verif.Common.Mem
/-!
What a checksum is: one shift of the register for each bit of the message, with the generator polynomial subtracted whenever the bit shifted out
and the message bit differ. In the reflected form the bytes are taken from their least significant bit and the register shifts towards it.
-/
namespace Bfdev.Crc

/-- One message bit, reflected form. -/
def serialLe {w : Nat} (poly crc : BitVec w) (b : Bool) : BitVec w := (crc >>> 1) ^^^ (if (crc.getLsbD 0 ^^ b) = true then poly else 0)
/-- One message bit, plain form. -/
def serialBe {w : Nat} (poly crc : BitVec w) (b : Bool) : BitVec w := (crc <<< 1) ^^^ (if (crc.msb ^^ b) = true then poly else 0)

/-- The bits of a byte, least significant first. -/
def bitsLe (d : Byte) : List Bool := (List.range 8).map d.getLsbD
/-- The bits of a byte, most significant first. -/
def bitsBe (d : Byte) : List Bool := (List.range 8).map fun i => d.getLsbD (7 - i)

/-- The checksum of a message, started from `crc`. -/
def specLe {w : Nat} (poly crc : BitVec w) (msg : List Byte) : BitVec w := (msg.flatMap bitsLe).foldl (serialLe poly) crc
def specBe {w : Nat} (poly crc : BitVec w) (msg : List Byte) : BitVec w := (msg.flatMap bitsBe).foldl (serialBe poly) crc

end Bfdev.Crc

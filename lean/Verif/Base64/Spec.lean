/-
RFC 4648 Base64, stated on bit streams and independently of the model.
-/
namespace Bfdev.Base64.Spec

/-- The eight bits of a byte, most significant first. -/
def bits8 (b : BitVec 8) : List Bool :=
  [b.getLsbD 7, b.getLsbD 6, b.getLsbD 5, b.getLsbD 4, b.getLsbD 3, b.getLsbD 2, b.getLsbD 1, b.getLsbD 0]

/-- The bit stream of a byte string, most significant bit of the first byte first. -/
def bitStream (l : List (BitVec 8)) : List Bool := l.flatMap bits8

/-- The six bits of a symbol value, most significant first. -/
def bits6 (n : Nat) : List Bool :=
  [n.testBit 5, n.testBit 4, n.testBit 3, n.testBit 2, n.testBit 1, n.testBit 0]

/-- Number denoted by a list of bits, most significant first. -/
def ofBits (l : List Bool) : Nat := l.foldl (fun n b => 2 * n + b.toNat) 0

/-- Cut a bit stream into 6-bit groups, filling the last one with zero bits on the right. -/
def sextets : List Bool → List Nat
  | [] => []
  | a :: b :: c :: d :: e :: f :: rest => ofBits [a, b, c, d, e, f] :: sextets rest
  | short => [ofBits ((short ++ List.replicate 6 false).take 6)]

/-- The alphabet of RFC 4648 section 4. -/
def alphabet : List (BitVec 8) :=
  "ABCDEFGHIJKLMNOPQRSTUVWXYZabcdefghijklmnopqrstuvwxyz0123456789+/".toList.map
    (fun c => BitVec.ofNat 8 c.toNat)

/-- The character `=`. -/
def pad : BitVec 8 := BitVec.ofNat 8 '='.toNat

/-- RFC 4648 encoding: symbols for the sextets, then `=` up to a multiple of four characters. -/
def encode (data : List (BitVec 8)) : List (BitVec 8) :=
  let syms := (sextets (bitStream data)).map (fun n => alphabet.getD n 0)
  syms ++ List.replicate ((4 - syms.length % 4) % 4) pad

/-- Value of a symbol: its position in the alphabet. -/
def symValue (c : BitVec 8) : Nat := alphabet.idxOf c

/-- The symbols of a text that precede the first padding character. -/
def symbols (text : List (BitVec 8)) : List (BitVec 8) := text.takeWhile (fun c => c != pad)

/-- The bit stream denoted by a list of symbols. -/
def symStream (syms : List (BitVec 8)) : List Bool := syms.flatMap (fun c => bits6 (symValue c))

end Bfdev.Base64.Spec

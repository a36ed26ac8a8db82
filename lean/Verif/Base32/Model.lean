/-
Model of `src/crypto/base32.c` and of the length helpers of `include/bfdev/base32.h`.

Bytes are `BitVec 8`; the C integer promotions are modelled at 8 bits, which is exact because every
intermediate value that is indexed or stored fits in (or is truncated to) 8 bits.
-/
namespace Bfdev.Base32

abbrev Byte := BitVec 8

/-- `base32_encode_table`, src/crypto/base32.c:10-16 (as character codes). -/
def encodeTable : List Byte :=
  [65, 66, 67, 68, 69, 70, 71, 72,
   73, 74, 75, 76, 77, 78, 79, 80,
   81, 82, 83, 84, 85, 86, 87, 88,
   89, 90, 50, 51, 52, 53, 54, 55]

/-- The designated initialisers of `base32_decode_table`, src/crypto/base32.c:18-29, as
(index, value) pairs; every other entry is `0xff`. -/
def decodeEntries : List (Byte × Byte) :=
  [(65, 0x00), (66, 0x01), (67, 0x02), (68, 0x03),
   (69, 0x04), (70, 0x05), (71, 0x06), (72, 0x07),
   (73, 0x08), (74, 0x09), (75, 0x0a), (76, 0x0b),
   (77, 0x0c), (78, 0x0d), (79, 0x0e), (80, 0x0f),
   (81, 0x10), (82, 0x11), (83, 0x12), (84, 0x13),
   (85, 0x14), (86, 0x15), (87, 0x16), (88, 0x17),
   (89, 0x18), (90, 0x19), (50, 0x1a), (51, 0x1b),
   (52, 0x1c), (53, 0x1d), (54, 0x1e), (55, 0x1f)]

/-- `base32_decode_table[c]`, src/crypto/base32.c:18-29. -/
def decodeTable (c : Byte) : Byte :=
  match decodeEntries.find? (fun e => e.1 == c) with
  | some e => e.2
  | none => 0xff

/-- `base32_encode_table[i]`; `none` models an out-of-bounds table read. -/
def enc (i : Byte) : Option Byte := encodeTable[i.toNat]?

/-- `base32_encode`, src/crypto/base32.c:31-114.  Returns the sequence of bytes stored through `*buff++`
(`none` on an out-of-bounds table read).  The trailing pointer `prev`, which starts at `data` and follows it
one byte behind inside a group, is resolved to the group's bytes.  The state machine of lines 49-113
runs for one to four remaining bytes; its four possible runs are the last equations. -/
def encode : List Byte → Option (List Byte)
  | a :: b :: c :: d :: e :: rest => do                         -- lines 38-47
      let s0 ← enc (a >>> 3)
      let s1 ← enc (((a &&& 0x7) <<< 2) ||| (b >>> 6))
      let s2 ← enc ((b >>> 1) &&& 0x1f)
      let s3 ← enc (((b &&& 0x1) <<< 4) ||| (c >>> 4))
      let s4 ← enc (((c &&& 0xf) <<< 1) ||| (d >>> 7))
      let s5 ← enc ((d >>> 2) &&& 0x1f)
      let s6 ← enc (((d &&& 0x3) <<< 3) ||| (e >>> 5))
      let s7 ← enc (e &&& 0x1f)
      let r ← encode rest
      return s0 :: s1 :: s2 :: s3 :: s4 :: s5 :: s6 :: s7 :: r
  | [a, b, c, d] => do                                           -- cases 0-3, then `case 4` of line 106
      let s0 ← enc (a >>> 3)
      let s1 ← enc (((a &&& 0x7) <<< 2) ||| (b >>> 6))
      let s2 ← enc ((b >>> 1) &&& 0x1f)
      let s3 ← enc (((b &&& 0x1) <<< 4) ||| (c >>> 4))
      let s4 ← enc (((c &&& 0xf) <<< 1) ||| (d >>> 7))
      let s5 ← enc ((d >>> 2) &&& 0x1f)
      let s6 ← enc ((d &&& 0x3) <<< 3)
      return [s0, s1, s2, s3, s4, s5, s6, 61]
  | [a, b, c] => do                                              -- cases 0-2, then `case 3` of line 99
      let s0 ← enc (a >>> 3)
      let s1 ← enc (((a &&& 0x7) <<< 2) ||| (b >>> 6))
      let s2 ← enc ((b >>> 1) &&& 0x1f)
      let s3 ← enc (((b &&& 0x1) <<< 4) ||| (c >>> 4))
      let s4 ← enc ((c &&& 0xf) <<< 1)
      return [s0, s1, s2, s3, s4, 61, 61, 61]
  | [a, b] => do                                                 -- cases 0-1, then `case 2` of line 91
      let s0 ← enc (a >>> 3)
      let s1 ← enc (((a &&& 0x7) <<< 2) ||| (b >>> 6))
      let s2 ← enc ((b >>> 1) &&& 0x1f)
      let s3 ← enc ((b &&& 0x1) <<< 4)
      return [s0, s1, s2, s3, 61, 61, 61, 61]
  | [a] => do                                                    -- case 0, then `case 1` of line 81
      let s0 ← enc (a >>> 3)
      let s1 ← enc ((a &&& 0x7) <<< 2)
      return [s0, s1, 61, 61, 61, 61, 61, 61]
  | [] => some []

/-- Outcome of a decoder: `ub` is an access outside the caller's buffer. -/
inductive DecResult where
  | ub
  | einval (buff : List Byte)
  | ok (buff : List Byte)
  deriving DecidableEq, Repr

/-- `*buff++ |= v; *buff = w;` with bound checks. -/
def orNext (pos : Nat) (buff : List Byte) (v w : Byte) : Option (Nat × List Byte) := do
  let x ← buff[pos]?
  let buff := buff.set pos (x ||| v)
  let _ ← buff[pos + 1]?
  return (pos + 1, buff.set (pos + 1) w)

/-- One pass through the `switch` of src/crypto/base32.c:132-168: `decode` is the symbol value, `st`
is `bstate & 7`, `pos` the offset of `buff` from its start; returns the new offset and buffer contents. -/
def decodeStep (decode : Byte) (st pos : Nat) (buff : List Byte) : Option (Nat × List Byte) :=
  match st with
  | 0 => do
      let _ ← buff[pos]?
      return (pos, buff.set pos (decode <<< 3))
  | 1 => orNext pos buff ((decode >>> 2) &&& 0x7) (decode <<< 6)
  | 2 => do
      let x ← buff[pos]?
      return (pos, buff.set pos (x ||| ((decode &&& 0x1f) <<< 1)))
  | 3 => orNext pos buff ((decode >>> 4) &&& 0x1) (decode <<< 4)
  | 4 => orNext pos buff ((decode >>> 1) &&& 0xf) (decode <<< 7)
  | 5 => do
      let x ← buff[pos]?
      return (pos, buff.set pos (x ||| ((decode &&& 0x1f) <<< 2)))
  | 6 => orNext pos buff ((decode >>> 3) &&& 0x3) (decode <<< 5)
  | _ => do
      let x ← buff[pos]?
      return (pos + 1, buff.set pos (x ||| (decode &&& 0x1f)))

/-- `base32_decode`, src/crypto/base32.c:116-172; `data` is the remaining input, `bstate` is taken modulo 8
(the C counter is an `unsigned int` only used through `& 7`, and 2^32 is a multiple of 8). -/
def decodeLoop : List Byte → Nat → Nat → List Byte → DecResult
  | [], _, _, buff => .ok buff
  | c :: data, bstate, pos, buff =>
      let decode := decodeTable c
      if decode = 0xff then
        if c = 61 then .ok buff else .einval buff
      else
        match decodeStep decode (bstate % 8) pos buff with
        | none => .ub
        | some (pos, buff) => decodeLoop data (bstate + 1) pos buff

/-- `bfdev_base32_decode`, src/crypto/base32.c:180-184. -/
def decode (data : List Byte) (buff : List Byte) : DecResult := decodeLoop data 0 0 buff

/-- `bfdev_base32_encode_length`, include/bfdev/base32.h:20-24 (no wrap: sizes of real objects are far
below 2^64). -/
def encodeLength (size : Nat) : Nat := (size + 5 - 1) / 5 * 8

/-- `bfdev_base32_decode_length`, include/bfdev/base32.h:30-34. -/
def decodeLength (size : Nat) : Nat := (size + 8 - 1) / 8 * 5

end Bfdev.Base32

/-
Model of `src/crypto/base64.c` and of the length helpers of `include/bfdev/base64.h`.

Bytes are `BitVec 8`; the C integer promotions are modelled at 8 bits, which is exact because every
intermediate value that is indexed or stored fits in (or is truncated to) 8 bits.
-/
namespace Bfdev.Base64

abbrev Byte := BitVec 8

/-- `base64_encode_table`, src/crypto/base64.c:10-20 (as character codes). -/
def encodeTable : List Byte :=
  [65, 66, 67, 68, 69, 70, 71, 72,
   73, 74, 75, 76, 77, 78, 79, 80,
   81, 82, 83, 84, 85, 86, 87, 88,
   89, 90, 97, 98, 99, 100, 101, 102,
   103, 104, 105, 106, 107, 108, 109, 110,
   111, 112, 113, 114, 115, 116, 117, 118,
   119, 120, 121, 122, 48, 49, 50, 51,
   52, 53, 54, 55, 56, 57, 43, 47]

/-- The designated initialisers of `base64_decode_table`, src/crypto/base64.c:22-41, as
(index, value) pairs; every other entry is `0xff`. -/
def decodeEntries : List (Byte × Byte) :=
  [(65, 0x00), (66, 0x01), (67, 0x02), (68, 0x03),
   (69, 0x04), (70, 0x05), (71, 0x06), (72, 0x07),
   (73, 0x08), (74, 0x09), (75, 0x0a), (76, 0x0b),
   (77, 0x0c), (78, 0x0d), (79, 0x0e), (80, 0x0f),
   (81, 0x10), (82, 0x11), (83, 0x12), (84, 0x13),
   (85, 0x14), (86, 0x15), (87, 0x16), (88, 0x17),
   (89, 0x18), (90, 0x19), (97, 0x1a), (98, 0x1b),
   (99, 0x1c), (100, 0x1d), (101, 0x1e), (102, 0x1f),
   (103, 0x20), (104, 0x21), (105, 0x22), (106, 0x23),
   (107, 0x24), (108, 0x25), (109, 0x26), (110, 0x27),
   (111, 0x28), (112, 0x29), (113, 0x2a), (114, 0x2b),
   (115, 0x2c), (116, 0x2d), (117, 0x2e), (118, 0x2f),
   (119, 0x30), (120, 0x31), (121, 0x32), (122, 0x33),
   (48, 0x34), (49, 0x35), (50, 0x36), (51, 0x37),
   (52, 0x38), (53, 0x39), (54, 0x3a), (55, 0x3b),
   (56, 0x3c), (57, 0x3d), (43, 0x3e), (47, 0x3f)]

/-- `base64_decode_table[c]`, src/crypto/base64.c:22-41. -/
def decodeTable (c : Byte) : Byte :=
  match decodeEntries.find? (fun e => e.1 == c) with
  | some e => e.2
  | none => 0xff

/-- `base64_encode_table[i]`; `none` models an out-of-bounds table read. -/
def enc (i : Byte) : Option Byte := encodeTable[i.toNat]?

/-- `base64_encode`, src/crypto/base64.c:43-91.  Returns the sequence of bytes stored through `*buff++`
(`none` on an out-of-bounds table read).  The trailing pointer `prev`, which starts at `data` and follows it
one byte behind inside a group, is resolved to the group's bytes.  The state machine of lines 57-90
runs for one or two remaining bytes; its two possible runs are the last two equations. -/
def encode : List Byte → Option (List Byte)
  | a :: b :: c :: rest => do                                   -- lines 50-55
      let s0 ← enc (a >>> 2)
      let s1 ← enc (((a &&& 0x3) <<< 4) ||| (b >>> 4))
      let s2 ← enc (((b &&& 0xf) <<< 2) ||| (c >>> 6))
      let s3 ← enc (c &&& 0x3f)
      let r ← encode rest
      return s0 :: s1 :: s2 :: s3 :: r
  | [a, b] => do                                                 -- case 0, case 1, then `case 2` of line 83
      let s0 ← enc (a >>> 2)
      let s1 ← enc (((a &&& 0x3) <<< 4) ||| (b >>> 4))
      let s2 ← enc ((b &&& 0xf) <<< 2)
      return [s0, s1, s2, 61]
  | [a] => do                                                    -- case 0, then `case 1` of line 77
      let s0 ← enc (a >>> 2)
      let s1 ← enc ((a &&& 0x3) <<< 4)
      return [s0, s1, 61, 61]
  | [] => some []

/-- Outcome of a decoder: `ub` is an access outside the caller's buffer. -/
inductive DecResult where
  | ub
  | einval (buff : List Byte)
  | ok (buff : List Byte)
  deriving DecidableEq, Repr

/-- One pass through the `switch` of src/crypto/base64.c:109-127: `decode` is the symbol value, `st`
is `bstate & 3`, `pos` the offset of `buff` from its start; returns the new offset and buffer contents. -/
def decodeStep (decode : Byte) (st pos : Nat) (buff : List Byte) : Option (Nat × List Byte) :=
  match st with
  | 0 => do
      let _ ← buff[pos]?
      return (pos, buff.set pos (decode <<< 2))
  | 1 => do
      let x ← buff[pos]?
      let buff := buff.set pos (x ||| ((decode >>> 4) &&& 0x3))
      let _ ← buff[pos + 1]?
      return (pos + 1, buff.set (pos + 1) (decode <<< 4))
  | 2 => do
      let x ← buff[pos]?
      let buff := buff.set pos (x ||| ((decode >>> 2) &&& 0xf))
      let _ ← buff[pos + 1]?
      return (pos + 1, buff.set (pos + 1) (decode <<< 6))
  | _ => do
      let x ← buff[pos]?
      return (pos + 1, buff.set pos (x ||| decode))

/-- `base64_decode`, src/crypto/base64.c:93-131; `data` is the remaining input, `bstate` is taken modulo 4
(the C counter is an `unsigned int` only used through `& 3`, and 2^32 is a multiple of 4). -/
def decodeLoop : List Byte → Nat → Nat → List Byte → DecResult
  | [], _, _, buff => .ok buff
  | c :: data, bstate, pos, buff =>
      let decode := decodeTable c
      if decode = 0xff then
        if c = 61 then .ok buff else .einval buff
      else
        match decodeStep decode (bstate % 4) pos buff with
        | none => .ub
        | some (pos, buff) => decodeLoop data (bstate + 1) pos buff

/-- `bfdev_base64_decode`, src/crypto/base64.c:139-143. -/
def decode (data : List Byte) (buff : List Byte) : DecResult := decodeLoop data 0 0 buff

/-- `bfdev_base64_encode_length`, include/bfdev/base64.h:20-24 (no wrap: sizes of real objects are far
below 2^64). -/
def encodeLength (size : Nat) : Nat := (size + 3 - 1) / 3 * 4

/-- `bfdev_base64_decode_length`, include/bfdev/base64.h:30-34. -/
def decodeLength (size : Nat) : Nat := (size + 4 - 1) / 4 * 3

end Bfdev.Base64

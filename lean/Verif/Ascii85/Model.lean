/-
Model of `src/crypto/ascii85.c` and of the length helpers of `include/bfdev/ascii85.h`.
-/
namespace Bfdev.Ascii85

abbrev Byte := BitVec 8

/-- `bfdev_unaligned_get_be32` (include/bfdev/asm-generic/unaligned.h:194-201) at offset 0 of the memory `m`; `none`
when fewer than four bytes are readable. -/
def getBe32 : List Byte → Option Nat
  | a :: b :: c :: d :: _ => some (((a.toNat * 256 + b.toNat) * 256 + c.toNat) * 256 + d.toNat)
  | _ => none

/-- Lines 23-34 (and again 41-52) of src/crypto/ascii85.c: the characters stored for one 32-bit group. -/
def encodeGroup (value : Nat) : List Byte :=
  if value = 0 then [122]
  else
    [BitVec.ofNat 8 (33 + value / 85 / 85 / 85 / 85 % 85),
     BitVec.ofNat 8 (33 + value / 85 / 85 / 85 % 85),
     BitVec.ofNat 8 (33 + value / 85 / 85 % 85),
     BitVec.ofNat 8 (33 + value / 85 % 85),
     BitVec.ofNat 8 (33 + value % 85)]

/-- `value &= BFDEV_BIT_HIGH_MASK((4 - size) * 8)` for `1 ≤ size ≤ 3`, src/crypto/ascii85.c:39 with
include/bfdev/bits.h:52-55 (the mask `~0UL << n` truncated to the 32-bit `value`: clears the low `n` bits). -/
def maskTail (value size : Nat) : Nat := value / 2 ^ ((4 - size) * 8) * 2 ^ ((4 - size) * 8)

/-- `ascii85_encode`, src/crypto/ascii85.c:13-56.  `mem` is the memory readable from `data` on, `size` the
length passed by the caller.  Result: the characters stored (their number is `*plen`), or `none` when
the code reads beyond `mem`. -/
def encode (mem : List Byte) (size : Nat) : Option (List Byte) :=
  if _h : 4 ≤ size then do
    let value ← getBe32 mem
    let r ← encode (mem.drop 4) (size - 4)
    return encodeGroup value ++ r
  else if size = 0 then some []
  else do
    let value ← getBe32 mem
    return encodeGroup (maskTail value size)
termination_by size

/-- Outcome of the decoder; `ub` is a store outside the caller's buffer. -/
inductive DecResult where
  | ub
  | einval
  | eproto
  | ok (buff : List Byte) (len : Nat)
  deriving DecidableEq, Repr

/-- A store of four bytes at offset `index`: `memset(buff + index, 0, 4)` or `bfdev_unaligned_set_be32`. -/
def store4 (buff : List Byte) (index : Nat) (v : List Byte) : Option (List Byte) :=
  if index + 4 ≤ buff.length then some (buff.take index ++ v ++ buff.drop (index + 4)) else none

/-- The four bytes stored by `bfdev_unaligned_set_be32`, include/bfdev/asm-generic/unaligned.h:221-228. -/
def be32Bytes (v : Nat) : List Byte :=
  [BitVec.ofNat 8 (v / 16777216), BitVec.ofNat 8 (v / 65536), BitVec.ofNat 8 (v / 256), BitVec.ofNat 8 v]

/-- Lines 74-76: the range check on one character. -/
def badChar (c : Byte) : Bool := c.toNat < 33 || 117 < c.toNat

/-- Lines 78-82: the 32-bit value of five characters, with the wrap-around of `uint32_t`. -/
def groupValue (a b c d e : Byte) : Nat :=
  (((((a.toNat - 33) * 85 + (b.toNat - 33)) * 85 + (c.toNat - 33)) * 85 + (d.toNat - 33)) * 85 + (e.toNat - 33)) % 2 ^ 32

/-- Lines 66-70: `if (*data == 'z') { memset(buff + index, 0, 4); data++; size--; }`. -/
def skipZ (data : List Byte) (index : Nat) (buff : List Byte) : Option (List Byte × List Byte) :=
  match data with
  | c :: data' =>
    if c = 122 then (store4 buff index [0, 0, 0, 0]).map (fun b => (data', b)) else some (c :: data', buff)
  | [] => some ([], buff)

theorem skipZ_length {data buff data1 buff1 : List Byte} {index : Nat}
    (h : skipZ data index buff = some (data1, buff1)) : data1.length ≤ data.length := by
  unfold skipZ at h
  split at h
  · split at h
    · cases hs : store4 buff index [0, 0, 0, 0] <;> simp_all
    · simp at h; simp [← h.1]
  · simp at h; simp [← h.1]

/-- `ascii85_decode`, src/crypto/ascii85.c:58-96; `data` is the remaining text, `index` the output offset.
One recursive call is one iteration of the `for` loop of line 65. -/
def decodeLoop (data : List Byte) (index : Nat) (buff : List Byte) : DecResult :=
  if data = [] then .ok buff index
  else
    match h : skipZ data index buff with                                  -- lines 66-70
    | none => .ub
    | some (a :: b :: c :: d :: e :: rest, buff1) =>                      -- lines 72-88
        if badChar a || badChar b || badChar c || badChar d || badChar e then .einval
        else
          match store4 buff1 index (be32Bytes (groupValue a b c d e)) with
          | none => .ub
          | some buff2 => decodeLoop rest (index + 4) buff2
    | some (_, _) => .eproto                                              -- line 90
termination_by data.length
decreasing_by
  have := skipZ_length h
  simp at this
  omega

/-- `bfdev_ascii85_decode`, src/crypto/ascii85.c:104-108. -/
def decode (data buff : List Byte) : DecResult := decodeLoop data 0 buff

/-- `bfdev_ascii85_encode_length`, include/bfdev/ascii85.h:23-27. -/
def encodeLength (size : Nat) : Nat := (size + 4 - 1) / 4 * 5

/-- `bfdev_ascii85_decode_length`, include/bfdev/ascii85.h:36-40. -/
def decodeLength (size : Nat) : Nat := (size + 5 - 1) / 5 * 4

end Bfdev.Ascii85

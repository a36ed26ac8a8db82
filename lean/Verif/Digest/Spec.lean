import Verif.Digest.Model
/-!
What the digests are, after FIPS 180-4 (SHA-1, SHA-224, SHA-256) and RFC 1321 (MD5). Only the word type, the register records and the byte type are shared
with the model.
-/
namespace Bfdev.Digest.Spec

/-! ### Messages (FIPS 180-4 section 5, RFC 1321 sections 3.1 and 3.2) -/

/-- The eight bytes of a 64-bit number, most significant first. -/
def be64 (n : Nat) : List Byte := (List.range 8).map fun i => BitVec.ofNat 8 (n / 256 ^ (7 - i))
/-- The eight bytes of a 64-bit number, least significant first. -/
def le64 (n : Nat) : List Byte := (List.range 8).map fun i => BitVec.ofNat 8 (n / 256 ^ i)

/-- The message, a one bit, the least number of zero bits that leaves 64 bits in the last block, and the length in bits (modulo `2^64`). -/
def pad (len64 : Nat → List Byte) (msg : List Byte) : List Byte :=
  msg ++ [0x80] ++ List.replicate ((119 - msg.length % 64) % 64) 0 ++ len64 (8 * msg.length)

/-- The 64-byte blocks of a padded message. -/
def blocks (l : List Byte) : List (List Byte) := (List.range (l.length / 64)).map fun i => (l.drop (64 * i)).take 64

/-- Byte `i` of a block. -/
def byte (blk : List Byte) (i : Nat) : Byte := blk.getD i 0
/-- Word `t` of a block, most significant byte first. -/
def beWord (blk : List Byte) (t : Nat) : W32 := byte blk (4 * t) ++ byte blk (4 * t + 1) ++ byte blk (4 * t + 2) ++ byte blk (4 * t + 3)
/-- Word `t` of a block, least significant byte first. -/
def leWord (blk : List Byte) (t : Nat) : W32 := byte blk (4 * t + 3) ++ byte blk (4 * t + 2) ++ byte blk (4 * t + 1) ++ byte blk (4 * t)

/-- The bytes of a word, most significant first. -/
def beBytes (v : W32) : List Byte := [v.extractLsb' 24 8, v.extractLsb' 16 8, v.extractLsb' 8 8, v.extractLsb' 0 8]
/-- The bytes of a word, least significant first. -/
def leBytes (v : W32) : List Byte := [v.extractLsb' 0 8, v.extractLsb' 8 8, v.extractLsb' 16 8, v.extractLsb' 24 8]

/-! ### FIPS 180-4 section 4: functions and constants -/

def ch (x y z : W32) : W32 := (x &&& y) ^^^ (~~~x &&& z)
def parity (x y z : W32) : W32 := x ^^^ y ^^^ z
def maj (x y z : W32) : W32 := (x &&& y) ^^^ (x &&& z) ^^^ (y &&& z)

/-- SHA-1, section 4.1.1. -/
def sha1F (t : Nat) : W32 → W32 → W32 → W32 := if t < 20 then ch else if t < 40 then parity else if t < 60 then maj else parity
/-- SHA-1, section 4.2.1. -/
def sha1K (t : Nat) : W32 := if t < 20 then 0x5a827999 else if t < 40 then 0x6ed9eba1 else if t < 60 then 0x8f1bbcdc else 0xca62c1d6

/-- SHA-1 message schedule, section 6.1.2 step 1. -/
def sha1W (blk : List Byte) (t : Nat) : W32 :=
  if t < 16 then beWord blk t else (sha1W blk (t - 3) ^^^ sha1W blk (t - 8) ^^^ sha1W blk (t - 14) ^^^ sha1W blk (t - 16)).rotateLeft 1

/-- SHA-1 after `t` rounds, section 6.1.2 step 3. -/
def sha1Rounds (blk : List Byte) (s : R5) : Nat → R5
  | 0 => s
  | t + 1 =>
    let r := sha1Rounds blk s t
    ⟨r.A.rotateLeft 5 + sha1F t r.B r.C r.D + r.E + sha1K t + sha1W blk t, r.A, r.B.rotateLeft 30, r.C, r.D⟩

/-- SHA-1 compression, section 6.1.2. -/
def sha1Comp (h : List W32) (blk : List Byte) : List W32 :=
  let r := sha1Rounds blk ⟨h.getD 0 0, h.getD 1 0, h.getD 2 0, h.getD 3 0, h.getD 4 0⟩ 80
  [r.A + h.getD 0 0, r.B + h.getD 1 0, r.C + h.getD 2 0, r.D + h.getD 3 0, r.E + h.getD 4 0]

/-- SHA-256, section 4.1.2. -/
def bSig0 (x : W32) : W32 := x.rotateRight 2 ^^^ x.rotateRight 13 ^^^ x.rotateRight 22
def bSig1 (x : W32) : W32 := x.rotateRight 6 ^^^ x.rotateRight 11 ^^^ x.rotateRight 25
def sSig0 (x : W32) : W32 := x.rotateRight 7 ^^^ x.rotateRight 18 ^^^ (x >>> 3)
def sSig1 (x : W32) : W32 := x.rotateRight 17 ^^^ x.rotateRight 19 ^^^ (x >>> 10)

/-- A prime number. -/
def IsPrime (n : Nat) : Prop := 2 ≤ n ∧ ∀ d, d ∣ n → d = 1 ∨ d = n

/-- `v` is made of the lowest 32 bits of `⌊p^(1/k) 2^bits⌋`. With `bits = 32` these are the first 32 bits of the fractional part of the `k`-th root of `p`, with
`bits = 64` the second 32. -/
def RootBits (k bits p : Nat) (v : W32) : Prop := ∃ r, r ^ k ≤ p * (2 ^ bits) ^ k ∧ p * (2 ^ bits) ^ k < (r + 1) ^ k ∧ v = BitVec.ofNat 32 r

/-- The constants of SHA-224 and SHA-256, sections 4.2.2, 5.3.2 and 5.3.3, in terms of the first 64 primes: the round constants `k` and the two initial values. -/
def Constants (k : Nat → W32) (iv224 iv256 : List W32) : Prop :=
  iv224.length = 8 ∧ iv256.length = 8 ∧
  ∃ primes : List Nat, primes.length = 64 ∧ primes.Pairwise (· < ·) ∧ (∀ n, n < 312 → (n ∈ primes ↔ IsPrime n)) ∧ (∀ n ∈ primes, n < 312) ∧
    (∀ t, t < 64 → RootBits 3 32 (primes.getD t 0) (k t)) ∧ (∀ t, t < 8 → RootBits 2 32 (primes.getD t 0) (iv256.getD t 0)) ∧
    (∀ t, t < 8 → RootBits 2 64 (primes.getD (8 + t) 0) (iv224.getD t 0))

/-- SHA-256 message schedule, section 6.2.2 step 1. -/
def sha2W (blk : List Byte) (t : Nat) : W32 :=
  if t < 16 then beWord blk t else sSig1 (sha2W blk (t - 2)) + sha2W blk (t - 7) + sSig0 (sha2W blk (t - 15)) + sha2W blk (t - 16)

/-- SHA-256 with constants `k` after `t` rounds, section 6.2.2 step 3. -/
def sha2Rounds (k : Nat → W32) (blk : List Byte) (s : R8) : Nat → R8
  | 0 => s
  | t + 1 =>
    let r := sha2Rounds k blk s t
    let t1 := r.H + bSig1 r.E + ch r.E r.F r.G + k t + sha2W blk t
    let t2 := bSig0 r.A + maj r.A r.B r.C
    ⟨t1 + t2, r.A, r.B, r.C, r.D + t1, r.E, r.F, r.G⟩

/-- SHA-256 compression, section 6.2.2. -/
def sha2Comp (k : Nat → W32) (h : List W32) (blk : List Byte) : List W32 :=
  let r := sha2Rounds k blk ⟨h.getD 0 0, h.getD 1 0, h.getD 2 0, h.getD 3 0, h.getD 4 0, h.getD 5 0, h.getD 6 0, h.getD 7 0⟩ 64
  [r.A + h.getD 0 0, r.B + h.getD 1 0, r.C + h.getD 2 0, r.D + h.getD 3 0, r.E + h.getD 4 0, r.F + h.getD 5 0, r.G + h.getD 6 0, r.H + h.getD 7 0]

/-! ### RFC 1321 section 3.4 -/

def md5Fun (i : Nat) (x y z : W32) : W32 :=
  if i < 16 then (x &&& y) ||| (~~~x &&& z) else if i < 32 then (x &&& z) ||| (y &&& ~~~z) else if i < 48 then x ^^^ y ^^^ z else y ^^^ (x ||| ~~~z)
/-- Which word of the block step `i` uses. -/
def md5Idx (i : Nat) : Nat := if i < 16 then i else if i < 32 then (5 * i + 1) % 16 else if i < 48 then (3 * i + 5) % 16 else 7 * i % 16
/-- By how much step `i` rotates. -/
def md5Rot (i : Nat) : Nat :=
  (if i < 16 then [7, 12, 17, 22] else if i < 32 then [5, 9, 14, 20] else if i < 48 then [4, 11, 16, 23] else [6, 10, 15, 21]).getD (i % 4) 0
/-- `⌊2^32 |sin i|⌋` for `i = 1 .. 64`, as printed in the RFC. -/
def md5T : List W32 :=
  [0xd76aa478, 0xe8c7b756, 0x242070db, 0xc1bdceee, 0xf57c0faf, 0x4787c62a, 0xa8304613, 0xfd469501,
   0x698098d8, 0x8b44f7af, 0xffff5bb1, 0x895cd7be, 0x6b901122, 0xfd987193, 0xa679438e, 0x49b40821,
   0xf61e2562, 0xc040b340, 0x265e5a51, 0xe9b6c7aa, 0xd62f105d, 0x02441453, 0xd8a1e681, 0xe7d3fbc8,
   0x21e1cde6, 0xc33707d6, 0xf4d50d87, 0x455a14ed, 0xa9e3e905, 0xfcefa3f8, 0x676f02d9, 0x8d2a4c8a,
   0xfffa3942, 0x8771f681, 0x6d9d6122, 0xfde5380c, 0xa4beea44, 0x4bdecfa9, 0xf6bb4b60, 0xbebfbc70,
   0x289b7ec6, 0xeaa127fa, 0xd4ef3085, 0x04881d05, 0xd9d4d039, 0xe6db99e5, 0x1fa27cf8, 0xc4ac5665,
   0xf4292244, 0x432aff97, 0xab9423a7, 0xfc93a039, 0x655b59c3, 0x8f0ccc92, 0xffeff47d, 0x85845dd1,
   0x6fa87e4f, 0xfe2ce6e0, 0xa3014314, 0x4e0811a1, 0xf7537e82, 0xbd3af235, 0x2ad7d2bb, 0xeb86d391]

/-- MD5 after `i` steps. -/
def md5Rounds (blk : List Byte) (s : R4) : Nat → R4
  | 0 => s
  | i + 1 =>
    let r := md5Rounds blk s i
    ⟨r.D, r.B + (r.A + md5Fun i r.B r.C r.D + leWord blk (md5Idx i) + md5T.getD i 0).rotateLeft (md5Rot i), r.B, r.C⟩

/-- MD5 compression. -/
def md5Comp (h : List W32) (blk : List Byte) : List W32 :=
  let r := md5Rounds blk ⟨h.getD 0 0, h.getD 1 0, h.getD 2 0, h.getD 3 0⟩ 64
  [r.A + h.getD 0 0, r.B + h.getD 1 0, r.C + h.getD 2 0, r.D + h.getD 3 0]

/-! ### The digests -/

/-- Fold a compression function over the blocks of the padded message and write out the words. -/
def digest (comp : List W32 → List Byte → List W32) (iv : List W32) (len64 : Nat → List Byte) (out : W32 → List Byte) (words : Nat) (msg : List Byte) : List Byte :=
  (((blocks (pad len64 msg)).foldl comp iv).take words).flatMap out

def md5 : List Byte → List Byte := digest md5Comp [0x67452301, 0xefcdab89, 0x98badcfe, 0x10325476] le64 leBytes 4
def sha1 : List Byte → List Byte := digest sha1Comp [0x67452301, 0xefcdab89, 0x98badcfe, 0x10325476, 0xc3d2e1f0] be64 beBytes 5
/-- The initial words and round constants of SHA-224 and SHA-256 are parameters, described in `Props` by the roots they come from. -/
def sha224 (k : Nat → W32) (iv : List W32) : List Byte → List Byte := digest (sha2Comp k) iv be64 beBytes 7
def sha256 (k : Nat → W32) (iv : List W32) : List Byte → List Byte := digest (sha2Comp k) iv be64 beBytes 8

end Bfdev.Digest.Spec

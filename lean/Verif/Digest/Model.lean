import Verif.Common.Mem
import Verif.Common.Loop
import Verif.Scan.Model
import Verif.Swab.Model
/-!
Model of `src/crypto/{md5,sha1,sha2}.c`, `include/bfdev/crypto/{md5,md5-base,sha1,sha1-base,sha2,sha2-base}.h` on the little-endian LP64 target.

Uninitialised memory (the workspace of the SHA transforms) is `none` until written; reading it, or any access outside a buffer, makes the function `none`.
-/
namespace Bfdev.Digest
open Scan (rol ror)
open Swab (getLe32 getBe32 setBe32 setBe64 setLe32)

abbrev W32 := BitVec 32

/-- `bfdev_sha1_ctx` (sha1.h:28-32), `bfdev_sha2_ctx` (sha2.h) and `bfdev_md5_ctx` (md5.h:25-29; its `block[16]` is kept as its 64 bytes of memory). -/
structure Ctx where
  state : List W32
  buffer : List Byte
  count : Nat
deriving DecidableEq, Repr

/-- A workspace word that has been written. -/
def ws (b : List (Option W32)) (i : Nat) : Option W32 := b[i]?.join

/-! ### SHA-1 transform -/

structure R5 where
  (A B C D E : W32)
deriving DecidableEq, Repr

/-- `BFDEV_SHA1_SRC`, crypto/sha1.h:17. -/
def sha1Src (d : List Byte) (p : Nat) (c : Nat) (_ : List (Option W32)) : Option W32 := getBe32 d (p + 4 * c)
/-- `BFDEV_SHA1_MIX`, crypto/sha1.h:19-21, 19-21: `c & 0x0f` is the remainder by 16. -/
def sha1Mix (c : Nat) (b : List (Option W32)) : Option W32 := do
  let w13 ← ws b ((c + 13) % 16)
  let w8 ← ws b ((c + 8) % 16)
  let w2 ← ws b ((c + 2) % 16)
  let w0 ← ws b (c % 16)
  return rol 32 (w13 ^^^ w8 ^^^ w2 ^^^ w0) 1

/-- `BFDEV_SHA1_ROUND`, crypto/sha1.h:23-30. -/
def sha1Round (func : Nat → List (Option W32) → Option W32) (const : W32) (exp : W32 → W32 → W32 → W32) (c : Nat) (s : R5 × List (Option W32)) :
    Option (R5 × List (Option W32)) := do
  let (r, b) := s
  let value ← func c b
  let b ← setIdx b (c % 16) (some value)
  let E := r.E + (value + rol 32 r.A 5 + exp r.B r.C r.D + const)
  let B := ror 32 r.B 2
  return (⟨E, r.A, B, r.C, r.D⟩, b)

/-- `BFDEV_SHA1_00_15 .. 60_79`, crypto/sha1.h:32-50. -/
def sha1Ch (B C D : W32) : W32 := ((C ^^^ D) &&& B) ^^^ D
def sha1Parity (B C D : W32) : W32 := B ^^^ C ^^^ D
def sha1Maj (B C D : W32) : W32 := (B &&& C) + (D &&& (B ^^^ C))

/-- `bfdev_sha1_transform`, crypto/sha1.h:52-93: five counting loops over 0-16, 16-20, 20-40, 40-60, 60-80. -/
def sha1Transform (digest : List W32) (block : List (Option W32)) (d : List Byte) (p : Nat) : Option (List W32 × List (Option W32)) := do
  match digest with
  | [d0, d1, d2, d3, d4] =>
    let s ← forN 16 (fun i => sha1Round (sha1Src d p) 0x5a827999 sha1Ch i) (⟨d0, d1, d2, d3, d4⟩, block)
    let s ← forN 4 (fun i => sha1Round sha1Mix 0x5a827999 sha1Ch (16 + i)) s
    let s ← forN 20 (fun i => sha1Round sha1Mix 0x6ed9eba1 sha1Parity (20 + i)) s
    let s ← forN 20 (fun i => sha1Round sha1Mix 0x8f1bbcdc sha1Maj (40 + i)) s
    let s ← forN 20 (fun i => sha1Round sha1Mix 0xca62c1d6 sha1Parity (60 + i)) s
    return ([d0 + s.1.A, d1 + s.1.B, d2 + s.1.C, d3 + s.1.D, d4 + s.1.E], s.2)
  | _ => none

/-! ### SHA-2 transform -/

/-- `bfdev_sha2_k`, crypto/sha2.h:16-34. -/
def sha2K : List W32 :=
  [0x428a2f98, 0x71374491, 0xb5c0fbcf, 0xe9b5dba5, 0x3956c25b, 0x59f111f1, 0x923f82a4, 0xab1c5ed5,
   0xd807aa98, 0x12835b01, 0x243185be, 0x550c7dc3, 0x72be5d74, 0x80deb1fe, 0x9bdc06a7, 0xc19bf174,
   0xe49b69c1, 0xefbe4786, 0x0fc19dc6, 0x240ca1cc, 0x2de92c6f, 0x4a7484aa, 0x5cb0a9dc, 0x76f988da,
   0x983e5152, 0xa831c66d, 0xb00327c8, 0xbf597fc7, 0xc6e00bf3, 0xd5a79147, 0x06ca6351, 0x14292967,
   0x27b70a85, 0x2e1b2138, 0x4d2c6dfc, 0x53380d13, 0x650a7354, 0x766a0abb, 0x81c2c92e, 0x92722c85,
   0xa2bfe8a1, 0xa81a664b, 0xc24b8b70, 0xc76c51a3, 0xd192e819, 0xd6990624, 0xf40e3585, 0x106aa070,
   0x19a4c116, 0x1e376c08, 0x2748774c, 0x34b0bcb5, 0x391c0cb3, 0x4ed8aa4a, 0x5b9cca4f, 0x682e6ff3,
   0x748f82ee, 0x78a5636f, 0x84c87814, 0x8cc70208, 0x90befffa, 0xa4506ceb, 0xbef9a3f7, 0xc67178f2]

/-- `BFDEV_SHA2_S0 .. MAJ`, crypto/sha2.h:36-53. -/
def sha2S0 (x : W32) : W32 := ror 32 x 7 ^^^ ror 32 x 18 ^^^ (x >>> 3)
def sha2S1 (x : W32) : W32 := ror 32 x 17 ^^^ ror 32 x 19 ^^^ (x >>> 10)
def sha2E0 (x : W32) : W32 := ror 32 x 2 ^^^ ror 32 x 13 ^^^ ror 32 x 22
def sha2E1 (x : W32) : W32 := ror 32 x 6 ^^^ ror 32 x 11 ^^^ ror 32 x 25
def sha2Ch (x y z : W32) : W32 := z ^^^ (x &&& (y ^^^ z))
def sha2Maj (x y z : W32) : W32 := (x &&& y) ||| (z &&& (x ||| y))

/-- `BFDEV_SHA2_LOAD`, crypto/sha2.h:55-57. -/
def sha2Load (d : List Byte) (p : Nat) (c : Nat) (b : List (Option W32)) : Option (List (Option W32)) := do
  let v ← getBe32 d (p + 4 * c)
  setIdx b c (some v)

/-- `BFDEV_SHA2_BLEND`, crypto/sha2.h:59-62. -/
def sha2Blend (c : Nat) (b : List (Option W32)) : Option (List (Option W32)) := do
  let w2 ← ws b (c - 2)
  let w7 ← ws b (c - 7)
  let w15 ← ws b (c - 15)
  let w16 ← ws b (c - 16)
  setIdx b c (some (sha2S1 w2 + w7 + sha2S0 w15 + w16))

/-- `BFDEV_SHA2_ROUND`, crypto/sha2.h:64-70: the new values of `D` and `H`. -/
def sha2Round (c : Nat) (b : List (Option W32)) (A B C D E F G H : W32) : Option (W32 × W32) := do
  let k ← sha2K[c]?
  let w ← ws b c
  let tmp1 := H + sha2E1 E + sha2Ch E F G + k + w
  let tmp2 := sha2E0 A + sha2Maj A B C
  return (D + tmp1, tmp1 + tmp2)

structure R8 where
  (A B C D E F G H : W32)
deriving DecidableEq, Repr

/-- The eight statements of a loop body that is unrolled eight times. -/
def unroll8 {σ : Type} (f : Nat → σ → Option σ) (count : Nat) (s : σ) : Option σ := do
  let s ← f (count + 0) s
  let s ← f (count + 1) s
  let s ← f (count + 2) s
  let s ← f (count + 3) s
  let s ← f (count + 4) s
  let s ← f (count + 5) s
  let s ← f (count + 6) s
  f (count + 7) s

/-- The body of the third loop of `bfdev_sha2_transform`, crypto/sha2.h:112-121. -/
def sha2Body (b : List (Option W32)) (count : Nat) (r : R8) : Option R8 := do
  let ⟨A, B, C, D, E, F, G, H⟩ := r
  let (D, H) ← sha2Round (count + 0) b A B C D E F G H
  let (C, G) ← sha2Round (count + 1) b H A B C D E F G
  let (B, F) ← sha2Round (count + 2) b G H A B C D E F
  let (A, E) ← sha2Round (count + 3) b F G H A B C D E
  let (H, D) ← sha2Round (count + 4) b E F G H A B C D
  let (G, C) ← sha2Round (count + 5) b D E F G H A B C
  let (F, B) ← sha2Round (count + 6) b C D E F G H A B
  let (E, A) ← sha2Round (count + 7) b B C D E F G H A
  return ⟨A, B, C, D, E, F, G, H⟩

/-- `bfdev_sha2_transform`, crypto/sha2.h:72-133. -/
def sha2Transform (digest : List W32) (block : List (Option W32)) (d : List Byte) (p : Nat) : Option (List W32 × List (Option W32)) := do
  match digest with
  | [d0, d1, d2, d3, d4, d5, d6, d7] =>
    let b ← forN 2 (fun i => unroll8 (sha2Load d p) (8 * i)) block
    let b ← forN 6 (fun i => unroll8 sha2Blend (16 + 8 * i)) b
    let r ← forN 8 (fun i => sha2Body b (8 * i)) ⟨d0, d1, d2, d3, d4, d5, d6, d7⟩
    return ([d0 + r.A, d1 + r.B, d2 + r.C, d3 + r.D, d4 + r.E, d5 + r.F, d6 + r.G, d7 + r.H], b)
  | _ => none

/-! ### SHA-1 and SHA-2 streaming -/

/-- The `while (blocks--)` loop of `sha1_transform_block` (sha1.c:18-21) and `sha2_transform_block` (sha2.c:18-21). -/
def shaLoop (transform : List W32 → List (Option W32) → List Byte → Nat → Option (List W32 × List (Option W32))) :
    Nat → List W32 → List (Option W32) → List Byte → Nat → Option (List W32)
  | 0, st, _, _, _ => some st
  | blocks + 1, st, w, d, p => do
    let (st, w) ← transform st w d p
    shaLoop transform blocks st w d (p + 64)

/-- `sha1_transform_block`, sha1.c:12-22: `buffer[16]` is uninitialised. -/
def sha1Block (st : List W32) (d : List Byte) (p blocks : Nat) : Option (List W32) :=
  shaLoop sha1Transform blocks st (List.replicate 16 none) d p
/-- `sha2_transform_block`, sha2.c:12-22: `buffer[64]` is uninitialised. -/
def sha2Block (st : List W32) (d : List Byte) (p blocks : Nat) : Option (List W32) :=
  shaLoop sha2Transform blocks st (List.replicate 64 none) d p

/-- Copy `len` bytes of `src` at `sp` to `dst` at `dp` (`memcpy`). -/
def copy (dst : List Byte) (dp : Nat) (src : List Byte) (sp len : Nat) : Option (List Byte) := do
  let bs ← rd src sp len
  wr dst dp bs

/-- sha1-base.h:31-38: complete a partly filled buffer and compress it. Returns the state, the buffer, the position in the data and the size left. -/
def shaHead (func : List W32 → List Byte → Nat → Nat → Option (List W32)) (ctx : Ctx) (data : List Byte) (size partial' : Nat) :
    Option (List W32 × List Byte × Nat × Nat) :=
  if partial' ≠ 0 then do
    let length := 64 - partial'
    let buf ← copy ctx.buffer partial' data 0 length
    let st ← func ctx.state buf 0 1
    return (st, buf, length, wsub size length)
  else some (ctx.state, ctx.buffer, 0, size)

/-- sha1-base.h:40-46: compress the whole blocks of the data where they lie. -/
def shaWhole (func : List W32 → List Byte → Nat → Nat → Option (List W32)) (st : List W32) (data : List Byte) (p blocks : Nat) : Option (List W32 × Nat) :=
  if blocks ≠ 0 then do
    let st ← func st data p blocks
    return (st, p + blocks * 64)
  else some (st, p)

/-- sha1-base.h:51-52: keep what is left. -/
def shaTail (buf : List Byte) (partial' : Nat) (data : List Byte) (p size : Nat) : Option (List Byte) :=
  if size ≠ 0 then copy buf partial' data p size else some buf

/-- `bfdev_sha1_base_update`, sha1-base.h:20-53, and the textually equal `bfdev_sha2_base_update`, sha2-base.h:20-53, reached from `bfdev_sha1_update` and
`bfdev_sha2_update`. The data is the whole memory block `data`; `partial + size` is a `size_t`. -/
def shaUpdate (func : List W32 → List Byte → Nat → Nat → Option (List W32)) (ctx : Ctx) (data : List Byte) (size : Nat) : Option Ctx :=
  let partial' := ctx.count % 64
  let count := w64 (ctx.count + size)
  if 64 ≤ w64 (partial' + size) then do
    let (st, buf, p, size) ← shaHead func ctx data size partial'
    let (st, p) ← shaWhole func st data p (size / 64)
    let buf ← shaTail buf 0 data p (size % 64)
    return { state := st, buffer := buf, count := count }
  else do
    let buf ← shaTail ctx.buffer partial' data 0 size
    return { state := ctx.state, buffer := buf, count := count }

/-- `memset(buf + off, 0, len)`. -/
def zero (buf : List Byte) (off len : Nat) : Option (List Byte) := wr buf off (List.replicate len 0)

/-- sha1-base.h:67-71: when the length does not fit any more, close the block and begin another. Returns the state, the buffer and `partial`. -/
def shaClose (func : List W32 → List Byte → Nat → Nat → Option (List W32)) (st : List W32) (buf : List Byte) (offset partial' : Nat) :
    Option (List W32 × List Byte × Nat) :=
  if offset < partial' then do
    let buf ← zero buf partial' (64 - partial')
    let st ← func st buf 0 1
    return (st, buf, 0)
  else some (st, buf, partial')

/-- `bfdev_sha1_base_finalize`, sha1-base.h:55-76, and `bfdev_sha2_base_finalize`, sha2-base.h:55-76. -/
def shaFinalize (func : List W32 → List Byte → Nat → Nat → Option (List W32)) (ctx : Ctx) : Option Ctx := do
  let offset := 64 - 8
  let partial' := ctx.count % 64
  let buf ← setIdx ctx.buffer partial' 0x80
  let (st, buf, partial') ← shaClose func ctx.state buf offset (partial' + 1)
  let buf ← zero buf partial' (offset - partial')
  let buf ← setBe64 buf offset (BitVec.ofNat 64 ctx.count <<< 3)
  let st ← func st buf 0 1
  return { ctx with state := st, buffer := buf }

/-- `bfdev_sha1_base_finish`, sha1-base.h:78-87, and `bfdev_sha2_base_finish`, sha2-base.h:78-87: `dsize` words, most significant byte first, to `hash`
at `p`. -/
def shaFinish (dsize : Nat) (ctx : Ctx) (hash : List Byte) (p : Nat) : Option (List Byte) :=
  forN dsize (fun count hash => do
    let v ← ctx.state[count]?
    setBe32 hash (p + 4 * count) v) hash

/-- `bfdev_sha1_digest_init`, sha1-base.h:89-97 with sha1.h:14-18. -/
def sha1Iv : List W32 := [0x67452301, 0xefcdab89, 0x98badcfe, 0x10325476, 0xc3d2e1f0]
/-- `bfdev_sha224_digest_init`, sha2-base.h:89-100 with sha2.h:14-21. -/
def sha224Iv : List W32 := [0xc1059ed8, 0x367cd507, 0x3070dd17, 0xf70e5939, 0xffc00b31, 0x68581511, 0x64f98fa7, 0xbefa4fa4]
/-- `bfdev_sha256_digest_init`, sha2-base.h:102-113 with sha2.h:23-30. -/
def sha256Iv : List W32 := [0x6a09e667, 0xbb67ae85, 0x3c6ef372, 0xa54ff53a, 0x510e527f, 0x9b05688c, 0x1f83d9ab, 0x5be0cd19]

/-- `bfdev_sha1_init` (sha1.c:37-42), `bfdev_sha224_init`, `bfdev_sha256_init` (sha2.c:45-57), `bfdev_md5_init` (md5.c:33-38): the buffer keeps whatever it held. -/
def init (iv : List W32) (ctx : Ctx) : Ctx := { ctx with state := iv, count := 0 }

/-- `bfdev_sha1_update`, sha1.c:24-28. -/
def sha1Update : Ctx → List Byte → Nat → Option Ctx := shaUpdate sha1Block
/-- `bfdev_sha1_finish`, sha1.c:30-35. -/
def sha1Finish (ctx : Ctx) (hash : List Byte) (p : Nat) : Option (Ctx × List Byte) := do
  let ctx ← shaFinalize sha1Block ctx
  let hash ← shaFinish 5 ctx hash p
  return (ctx, hash)
/-- `bfdev_sha2_update`, sha2.c:24-28. -/
def sha2Update : Ctx → List Byte → Nat → Option Ctx := shaUpdate sha2Block
/-- `bfdev_sha224_finish`, sha2.c:30-35. -/
def sha224Finish (ctx : Ctx) (hash : List Byte) (p : Nat) : Option (Ctx × List Byte) := do
  let ctx ← shaFinalize sha2Block ctx
  let hash ← shaFinish 7 ctx hash p
  return (ctx, hash)
/-- `bfdev_sha256_finish`, sha2.c:37-42. -/
def sha256Finish (ctx : Ctx) (hash : List Byte) (p : Nat) : Option (Ctx × List Byte) := do
  let ctx ← shaFinalize sha2Block ctx
  let hash ← shaFinish 8 ctx hash p
  return (ctx, hash)

/-! ### MD5 -/

inductive Fn | f1 | f2 | f3 | f4
deriving DecidableEq, Repr
inductive Reg | a | b | c | d
deriving DecidableEq, Repr

/-- `BFDEV_MD5_F1 .. F4`, crypto/md5.h:15-18. -/
def md5F : Fn → W32 → W32 → W32 → W32
  | .f1, x, y, z => z ^^^ (x &&& (y ^^^ z))
  | .f2, x, y, z => y ^^^ (z &&& (x ^^^ y))
  | .f3, x, y, z => x ^^^ y ^^^ z
  | .f4, x, y, z => y ^^^ (x ||| ~~~z)

structure R4 where
  (A B C D : W32)
deriving DecidableEq, Repr

def R4.get (r : R4) : Reg → W32
  | .a => r.A | .b => r.B | .c => r.C | .d => r.D
def R4.set (r : R4) : Reg → W32 → R4
  | .a, v => { r with A := v } | .b, v => { r with B := v } | .c, v => { r with C := v } | .d, v => { r with D := v }

/-- One `BFDEV_MD5_STEP` line: function, the registers in the places w, x, y, z, index into the data, constant, shift. -/
abbrev Row := Fn × Reg × Reg × Reg × Reg × Nat × W32 × Nat

/-- `BFDEV_MD5_STEP`, crypto/md5.h:20-23. -/
def md5Step (row : Row) (data : List Byte) (r : R4) : Option R4 := do
  let (f, w, x, y, z, k, c, s) := row
  let dk ← getLe32 data (4 * k)
  let v := r.get w + (md5F f (r.get x) (r.get y) (r.get z) + (dk + c))
  let v := (v <<< s ||| v >>> (32 - s)) + r.get x
  return r.set w v

/-- The 64 steps of `bfdev_md5_transform`, crypto/md5.h:35-106. -/
def md5Rows : List Row :=
  [
   (.f1, .a, .b, .c, .d, 0, 0xd76aa478, 7), (.f1, .d, .a, .b, .c, 1, 0xe8c7b756, 12),
   (.f1, .c, .d, .a, .b, 2, 0x242070db, 17), (.f1, .b, .c, .d, .a, 3, 0xc1bdceee, 22),
   (.f1, .a, .b, .c, .d, 4, 0xf57c0faf, 7), (.f1, .d, .a, .b, .c, 5, 0x4787c62a, 12),
   (.f1, .c, .d, .a, .b, 6, 0xa8304613, 17), (.f1, .b, .c, .d, .a, 7, 0xfd469501, 22),
   (.f1, .a, .b, .c, .d, 8, 0x698098d8, 7), (.f1, .d, .a, .b, .c, 9, 0x8b44f7af, 12),
   (.f1, .c, .d, .a, .b, 10, 0xffff5bb1, 17), (.f1, .b, .c, .d, .a, 11, 0x895cd7be, 22),
   (.f1, .a, .b, .c, .d, 12, 0x6b901122, 7), (.f1, .d, .a, .b, .c, 13, 0xfd987193, 12),
   (.f1, .c, .d, .a, .b, 14, 0xa679438e, 17), (.f1, .b, .c, .d, .a, 15, 0x49b40821, 22),
   (.f2, .a, .b, .c, .d, 1, 0xf61e2562, 5), (.f2, .d, .a, .b, .c, 6, 0xc040b340, 9),
   (.f2, .c, .d, .a, .b, 11, 0x265e5a51, 14), (.f2, .b, .c, .d, .a, 0, 0xe9b6c7aa, 20),
   (.f2, .a, .b, .c, .d, 5, 0xd62f105d, 5), (.f2, .d, .a, .b, .c, 10, 0x02441453, 9),
   (.f2, .c, .d, .a, .b, 15, 0xd8a1e681, 14), (.f2, .b, .c, .d, .a, 4, 0xe7d3fbc8, 20),
   (.f2, .a, .b, .c, .d, 9, 0x21e1cde6, 5), (.f2, .d, .a, .b, .c, 14, 0xc33707d6, 9),
   (.f2, .c, .d, .a, .b, 3, 0xf4d50d87, 14), (.f2, .b, .c, .d, .a, 8, 0x455a14ed, 20),
   (.f2, .a, .b, .c, .d, 13, 0xa9e3e905, 5), (.f2, .d, .a, .b, .c, 2, 0xfcefa3f8, 9),
   (.f2, .c, .d, .a, .b, 7, 0x676f02d9, 14), (.f2, .b, .c, .d, .a, 12, 0x8d2a4c8a, 20),
   (.f3, .a, .b, .c, .d, 5, 0xfffa3942, 4), (.f3, .d, .a, .b, .c, 8, 0x8771f681, 11),
   (.f3, .c, .d, .a, .b, 11, 0x6d9d6122, 16), (.f3, .b, .c, .d, .a, 14, 0xfde5380c, 23),
   (.f3, .a, .b, .c, .d, 1, 0xa4beea44, 4), (.f3, .d, .a, .b, .c, 4, 0x4bdecfa9, 11),
   (.f3, .c, .d, .a, .b, 7, 0xf6bb4b60, 16), (.f3, .b, .c, .d, .a, 10, 0xbebfbc70, 23),
   (.f3, .a, .b, .c, .d, 13, 0x289b7ec6, 4), (.f3, .d, .a, .b, .c, 0, 0xeaa127fa, 11),
   (.f3, .c, .d, .a, .b, 3, 0xd4ef3085, 16), (.f3, .b, .c, .d, .a, 6, 0x04881d05, 23),
   (.f3, .a, .b, .c, .d, 9, 0xd9d4d039, 4), (.f3, .d, .a, .b, .c, 12, 0xe6db99e5, 11),
   (.f3, .c, .d, .a, .b, 15, 0x1fa27cf8, 16), (.f3, .b, .c, .d, .a, 2, 0xc4ac5665, 23),
   (.f4, .a, .b, .c, .d, 0, 0xf4292244, 6), (.f4, .d, .a, .b, .c, 7, 0x432aff97, 10),
   (.f4, .c, .d, .a, .b, 14, 0xab9423a7, 15), (.f4, .b, .c, .d, .a, 5, 0xfc93a039, 21),
   (.f4, .a, .b, .c, .d, 12, 0x655b59c3, 6), (.f4, .d, .a, .b, .c, 3, 0x8f0ccc92, 10),
   (.f4, .c, .d, .a, .b, 10, 0xffeff47d, 15), (.f4, .b, .c, .d, .a, 1, 0x85845dd1, 21),
   (.f4, .a, .b, .c, .d, 8, 0x6fa87e4f, 6), (.f4, .d, .a, .b, .c, 15, 0xfe2ce6e0, 10),
   (.f4, .c, .d, .a, .b, 6, 0xa3014314, 15), (.f4, .b, .c, .d, .a, 13, 0x4e0811a1, 21),
   (.f4, .a, .b, .c, .d, 4, 0xf7537e82, 6), (.f4, .d, .a, .b, .c, 11, 0xbd3af235, 10),
   (.f4, .c, .d, .a, .b, 2, 0x2ad7d2bb, 15), (.f4, .b, .c, .d, .a, 9, 0xeb86d391, 21)]

/-- The steps one after the other. -/
def md5Steps : List Row → List Byte → R4 → Option R4
  | [], _, r => some r
  | row :: rows, data, r => (md5Step row data r).bind (md5Steps rows data)

/-- `bfdev_md5_transform`, crypto/md5.h:25-112, and `md5_transform_block`, md5.c:12-18 (converting the block from little-endian is the identity). -/
def md5Block (digest : List W32) (block : List Byte) : Option (List W32) := do
  match digest with
  | [h0, h1, h2, h3] =>
    let r ← md5Steps md5Rows block ⟨h0, h1, h2, h3⟩
    return [h0 + r.A, h1 + r.B, h2 + r.C, h3 + r.D]
  | _ => none

/-- The `while (size >= sizeof(ctx->block))` loop of `bfdev_md5_base_update`, md5-base.h:42-47, with its iterations bounded by `fuel`. -/
def md5Loop (func : List W32 → List Byte → Option (List W32)) : Nat → List W32 → List Byte → List Byte → Nat → Nat → Option (List W32 × List Byte × Nat × Nat)
  | 0, _, _, _, _, _ => none
  | fuel + 1, st, buf, data, p, size =>
    if 64 ≤ size then do
      let buf ← copy buf 0 data p 64
      let st ← func st buf
      md5Loop func fuel st buf data (p + 64) (size - 64)
    else some (st, buf, p, size)

/-- `bfdev_md5_base_update`, md5-base.h:21-50, reached from `bfdev_md5_update`. `count & 0x3f` is the remainder by 64. -/
def md5UpdateWith (func : List W32 → List Byte → Option (List W32)) (ctx : Ctx) (data : List Byte) (size : Nat) : Option Ctx := do
  let avail := 64 - ctx.count % 64
  let count := w64 (ctx.count + size)
  if size < avail then
    let buf ← copy ctx.buffer (64 - avail) data 0 size
    return { ctx with buffer := buf, count := count }
  else
    let buf ← copy ctx.buffer (64 - avail) data 0 avail
    let st ← func ctx.state buf
    let (st, buf, p, size) ← md5Loop func (size + 1) st buf data avail (size - avail)
    let buf ← copy buf 0 data p size
    return { state := st, buffer := buf, count := count }

/-- md5-base.h:63-69: when the length does not fit any more, close the block and begin another. Returns the state, the buffer, `ptr` and `padding`. -/
def md5Close (func : List W32 → List Byte → Option (List W32)) (st : List W32) (buf : List Byte) (ptr : Nat) (padding : Int) :
    Option (List W32 × List Byte × Nat × Int) :=
  if padding < 0 then do
    let buf ← zero buf ptr (padding + 8).toNat
    let st ← func st buf
    return (st, buf, 0, (56 : Int))
  else some (st, buf, ptr, padding)

/-- `bfdev_md5_base_finalize`, md5-base.h:52-77: `padding` is an `int`. -/
def md5FinalizeWith (func : List W32 → List Byte → Option (List W32)) (ctx : Ctx) : Option Ctx := do
  let offset := ctx.count % 64
  let buf ← setIdx ctx.buffer offset 0x80
  let (st, buf, ptr, padding) ← md5Close func ctx.state buf (offset + 1) (56 - ((offset : Int) + 1))
  let buf ← zero buf ptr padding.toNat
  let buf ← setLe32 buf (4 * 14) ((BitVec.ofNat 64 ctx.count <<< 3).setWidth 32)
  let buf ← setLe32 buf (4 * 15) ((BitVec.ofNat 64 ctx.count >>> 29).setWidth 32)
  let st ← func st buf
  return { ctx with state := st, buffer := buf }

/-- `bfdev_md5_base_final`, md5-base.h:79-85: the words are copied as they lie in memory. -/
def md5Final (ctx : Ctx) (hash : List Byte) (p : Nat) : Option (List Byte) :=
  forN 4 (fun count hash => do
    let v ← ctx.state[count]?
    setLe32 hash (p + 4 * count) v) hash

/-- `bfdev_md5_digest_init`, md5-base.h:87-94 with md5.h:19-22. -/
def md5Iv : List W32 := [0x67452301, 0xefcdab89, 0x98badcfe, 0x10325476]

/-- `bfdev_md5_update`, md5.c:20-24. -/
def md5Update : Ctx → List Byte → Nat → Option Ctx := md5UpdateWith md5Block
/-- `bfdev_md5_finish`, md5.c:26-31. -/
def md5Finish (ctx : Ctx) (hash : List Byte) (p : Nat) : Option (Ctx × List Byte) := do
  let ctx ← md5FinalizeWith md5Block ctx
  let hash ← md5Final ctx hash p
  return (ctx, hash)

end Bfdev.Digest

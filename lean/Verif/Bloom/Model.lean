import Verif.Jhash.Model
import Verif.Scan.Model
/-!
Model of `src/bloom.c`. The bitmap is a list of 64-bit words; reading or writing outside it is the outcome `none`, and so is the
undefined shift of the hash for a filter without bits. Keys are numbers, the hash callback is a function of the number of the hash
function and the key.
-/
namespace Bfdev.Bloom
open Scan (Word)

/-- `struct bfdev_bloom`, bloom.h:21-29. -/
structure Bloom where
  capacity : Nat
  funcs : Nat
  bitmap : List Word

abbrev Hash := Nat → Nat → BitVec 32

/-- `bfdev_hashtbl_index`, hashtbl.h:32-40. -/
def hashtblIndex (size : Word) (key : Word) : Option Nat :=
  (Scan.ilog2Dynamic size).bind fun bits => (Jhash.hash64 key bits).map fun h => h.toNat

/-- `bloom_index`, bloom.c:12-21; the result is converted to `unsigned int`. -/
def index (hash : Hash) (b : Bloom) (func key : Nat) : Option Nat :=
  (hashtblIndex (BitVec.ofNat 64 b.capacity) (BitVec.zeroExtend 64 (hash func key))).map fun i => i % 2 ^ 32

/-- `bfdev_bit_test`, asm-generic/bitops.h:60-68. -/
def bitTest (m : List Word) (bit : Nat) : Option Bool := m[bit / 64]?.map fun w => (w &&& Scan.bit bit) != 0

/-- `bfdev_bit_test_set`, asm-generic/bitops.h:83-94. -/
def bitTestSet (m : List Word) (bit : Nat) : Option (Bool × List Word) :=
  m[bit / 64]?.map fun old => ((old &&& Scan.bit bit) != 0, m.set (bit / 64) (old ||| Scan.bit bit))

/-- The loop of `bfdev_bloom_peek`, bloom.c:29-34, with `left` functions to go. -/
def peekFrom (hash : Hash) (b : Bloom) (key : Nat) : Nat → Nat → Bool → Option Bool
  | 0, _, retval => some retval
  | left + 1, func, retval =>
    (index hash b func key).bind fun i =>
      (bitTest b.bitmap i).bind fun t =>
        peekFrom hash b key left (func + 1) (if !t then false else retval)

/-- `bfdev_bloom_peek`, bloom.c:23-37. -/
def peek (hash : Hash) (b : Bloom) (key : Nat) : Option Bool := peekFrom hash b key b.funcs 0 true

/-- The loop of `bfdev_bloom_push`, bloom.c:46-51. -/
def pushFrom (hash : Hash) (key : Nat) : Nat → Nat → Bool → Bloom → Option (Bool × Bloom)
  | 0, _, retval, b => some (retval, b)
  | left + 1, func, retval, b =>
    (index hash b func key).bind fun i =>
      (bitTestSet b.bitmap i).bind fun t =>
        pushFrom hash key left (func + 1) (if !t.1 then false else retval) { b with bitmap := t.2 }

/-- `bfdev_bloom_push`, bloom.c:39-54. -/
def push (hash : Hash) (b : Bloom) (key : Nat) : Option (Bool × Bloom) := pushFrom hash key b.funcs 0 true b

/-- `memset(m, 0, size)` on the bytes of the words, lowest byte first (little endian). -/
def zeroBytes (m : List Word) (size : Nat) : List Word :=
  m.mapIdx fun k w => if size ≤ 8 * k then w else if 8 * k + 8 ≤ size then 0 else (w >>> (8 * (size - 8 * k))) <<< (8 * (size - 8 * k))

/-- `bfdev_bloom_flush`, bloom.c:56-63: the size is the number of words, but it is given to a function that counts bytes. -/
def flush (b : Bloom) : Bloom := { b with bitmap := zeroBytes b.bitmap (b.capacity / 64) }

/-- `bfdev_bloom_create`, bloom.c:65-86, when the allocator grants the request. -/
def create (capacity : BitVec 32) (funcs : Nat) : Bloom :=
  let capacity := (capacity + 63) &&& ~~~63#32
  { capacity := capacity.toNat, funcs := funcs, bitmap := List.replicate (capacity.toNat / 64) 0 }

end Bfdev.Bloom

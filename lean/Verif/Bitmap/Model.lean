import Verif.Scan.Model
/-!
Model of `src/bitmap.c`, `include/bfdev/bitmap.h`, `src/bitwalk.c`, `include/bfdev/bitwalk.h` and the single-bit operations of
`include/bfdev/asm-generic/bitops.h`. Memory is a list of 64-bit words, a pointer is a word index, so that destination and
sources may alias. Access outside memory, undefined shifts and endless loops are `none`. `unsigned int` arithmetic is modulo 2^32.
Inline functions take the flag `const`: whether the compiler knows the bit count (`__builtin_constant_p`).
-/
namespace Bfdev.Bitmap
open Bfdev.Scan (Word lowMask highMask bit bitRange ffsuf flsuf ffzuf flzuf)

abbrev Mem := List Word

def rd (m : Mem) (a : Nat) : Option Word := m[a]?
def wr (m : Mem) (a : Nat) (v : Word) : Option Mem := if a < m.length then some (m.set a v) else none

/-- One byte of memory (little endian). -/
def rdByte (m : Mem) (b : Nat) : Option (BitVec 8) := (rd m (b / 8)).map (fun (w : Word) => (w >>> (8 * (b % 8))).setWidth 8)
def wrByte (m : Mem) (b : Nat) (v : BitVec 8) : Option Mem := do
  let w ← rd m (b / 8)
  wr m (b / 8) ((w &&& ~~~(0xff#64 <<< (8 * (b % 8)))) ||| (v.setWidth 64 <<< (8 * (b % 8))))

/-- `memset` on bytes. -/
def memset : Nat → Mem → Nat → BitVec 8 → Option Mem
  | 0, m, _, _ => some m
  | n + 1, m, b, v => do memset n (← wrByte m b v) (b + 1) v

/-- `memcpy` on bytes (byte addresses of destination and source). -/
def memcpy : Nat → Mem → Nat → Nat → Option Mem
  | 0, m, _, _ => some m
  | n + 1, m, d, s => do memcpy n (← wrByte m d (← rdByte m s)) (d + 1) (s + 1)

/-- `memcmp`: is there a difference? -/
def memcmp : Nat → Mem → Nat → Nat → Option Bool
  | 0, _, _, _ => some false
  | n + 1, m, a, b => do if (← rdByte m a) ≠ (← rdByte m b) then return true else memcmp n m (a + 1) (b + 1)

/-- `bfdev_memdiff`, src/libc/string.c:23-37: is there a byte different from `c`? -/
def memdiff : Nat → Mem → Nat → BitVec 8 → Option Bool
  | 0, _, _, _ => some false
  | n + 1, m, a, c => do if (← rdByte m a) ≠ c then return true else memdiff n m (a + 1) c

/-- The test `bfdev_const_small_nbits`, asm-generic/bitsperlong.h:21-24. -/
def constSmall (const : Bool) (bits : Nat) : Bool := const && decide (bits ≤ 64 ∧ 0 < bits)
/-- The test `bfdev_bitmap_const_aligned`, bitmap.h:34-37. -/
def constAligned (const : Bool) (bits : Nat) : Bool := const && decide (bits % 8 = 0)

/-! ### Comparisons -/

/-- `for (index = 0; index < length; ++index) if (cond) …`, the shape of the loops of bitmap.c:18-21, 40-43, 62-65: did the condition hold? -/
def scanLoop (stop : Nat → Option Bool) : Nat → Nat → Option Bool
  | 0, _ => some false
  | n + 1, i => do if ← stop i then return true else scanLoop stop n (i + 1)

/-- `bfdev_bitmap_comp_equal`, bitmap.c:10-30. -/
def compEqual (m : Mem) (s1 s2 bits : Nat) : Option Bool := do
  if ← scanLoop (fun i => do return (← rd m (s1 + i)) != (← rd m (s2 + i))) (bits / 64) 0 then return false
  if bits % 64 ≠ 0 then
    let value := (← rd m (s1 + bits / 64)) ^^^ (← rd m (s2 + bits / 64))
    return value &&& lowMask bits == 0
  else return true

/-- `bfdev_bitmap_comp_or_equal`, bitmap.c:32-52. -/
def compOrEqual (m : Mem) (s1 s2 s3 bits : Nat) : Option Bool := do
  if ← scanLoop (fun i => do return ((← rd m (s1 + i)) ||| (← rd m (s2 + i))) != (← rd m (s3 + i))) (bits / 64) 0 then return false
  if bits % 64 ≠ 0 then
    let value := ((← rd m (s1 + bits / 64)) ||| (← rd m (s2 + bits / 64))) ^^^ (← rd m (s3 + bits / 64))
    return value &&& lowMask bits == 0
  else return true

/-- `bfdev_bitmap_comp_intersects`, bitmap.c:54-74. -/
def compIntersects (m : Mem) (s1 s2 bits : Nat) : Option Bool := do
  if ← scanLoop (fun i => do return ((← rd m (s1 + i)) &&& (← rd m (s2 + i))) != 0) (bits / 64) 0 then return true
  if bits % 64 ≠ 0 then
    let value := (← rd m (s1 + bits / 64)) &&& (← rd m (s2 + bits / 64))
    return value &&& lowMask bits != 0
  else return false

/-! ### Bitwise operations -/

/-- `for (index = 0; index < length; ++index) { value = …; result |= (dest[index] = value); }`, the loop of bitmap.c:86-89; the
functions without a result (bitmap.c:128-131, …) drop it. -/
def fullWords (val : Mem → Nat → Option Word) (dest : Nat) : Nat → Nat → Mem → Word → Option (Mem × Word)
  | 0, _, m, res => some (m, res)
  | n + 1, i, m, res => do
    let value ← val m i
    fullWords val dest n (i + 1) (← wr m (dest + i) value) (res ||| value)

/-- The common shape of the functions of bitmap.c:76-156, 253-293: full words, then the masked last word. -/
def comp (val : Mem → Nat → Option Word) (m : Mem) (dest bits : Nat) : Option (Mem × Word) := do
  let (m, res) ← fullWords val dest (bits / 64) 0 m 0
  if bits % 64 ≠ 0 then
    let value := (← val m (bits / 64)) &&& lowMask bits
    return (← wr m (dest + bits / 64) value, res ||| value)
  else return (m, res)

/-- `bfdev_bitmap_comp_and`, bitmap.c:76-97. -/
def compAnd (m : Mem) (d s1 s2 bits : Nat) : Option (Mem × Bool) := do
  let (m, res) ← comp (fun m i => do return (← rd m (s1 + i)) &&& (← rd m (s2 + i))) m d bits
  return (m, res != 0)
/-- `bfdev_bitmap_comp_andnot`, bitmap.c:99-120. -/
def compAndnot (m : Mem) (d s1 s2 bits : Nat) : Option (Mem × Bool) := do
  let (m, res) ← comp (fun m i => do return (← rd m (s1 + i)) &&& ~~~(← rd m (s2 + i))) m d bits
  return (m, res != 0)
/-- `bfdev_bitmap_comp_or`, bitmap.c:122-139. -/
def compOr (m : Mem) (d s1 s2 bits : Nat) : Option Mem := do
  return (← comp (fun m i => do return (← rd m (s1 + i)) ||| (← rd m (s2 + i))) m d bits).1
/-- `bfdev_bitmap_comp_xor`, bitmap.c:141-158. -/
def compXor (m : Mem) (d s1 s2 bits : Nat) : Option Mem := do
  return (← comp (fun m i => do return (← rd m (s1 + i)) ^^^ (← rd m (s2 + i))) m d bits).1
/-- `bfdev_bitmap_comp_complement`, bitmap.c:253-270. -/
def compComplement (m : Mem) (d s bits : Nat) : Option Mem := do
  return (← comp (fun m i => do return ~~~(← rd m (s + i))) m d bits).1
/-- `bfdev_bitmap_comp_replace`, bitmap.c:272-291. -/
def compReplace (m : Mem) (d o n k bits : Nat) : Option Mem := do
  return (← comp (fun m i => do return ((← rd m (o + i)) &&& ~~~(← rd m (k + i))) ||| ((← rd m (n + i)) &&& (← rd m (k + i)))) m d bits).1

/-! ### Shifts -/

/-- `BFDEV_BITS_TO_LONG(bits)`, bitops.h:47 and math.h:46-48, in `unsigned int`. -/
def bitsToLong (bits : Nat) : Nat := (bits + 63) % 2 ^ 32 / 64

/-- `memset(dest, 0, n * sizeof(*dest))`. -/
def zeroWords : Nat → Mem → Nat → Option Mem
  | 0, m, _ => some m
  | n + 1, m, d => do zeroWords n (← wr m d 0) (d + 1)

/-- The word computed in bitmap.c:181-188 and 193-200 (`index` after the decrement). -/
def shlWord (m : Mem) (src rem index : Nat) : Option Word := do
  let vhigh := (← rd m (src + index)) <<< rem
  let vlow ← if rem ≠ 0 ∧ index ≠ 0 then (rd m (src + (index - 1))).map (fun (v : Word) => v >>> (64 - rem)) else some 0
  return vhigh ||| vlow

/-- `while (index) …`, bitmap.c:192-202. -/
def shlLoop (dest src rem offset : Nat) : Nat → Mem → Option Mem
  | 0, m => some m
  | index + 1, m => do
    let value ← shlWord m src rem index
    shlLoop dest src rem offset index (← wr m (dest + (index + offset)) value)

/-- `if (BFDEV_BITS_MOD_LONG(bits))`: the partial word of a left shift, bitmap.c:180-190; the memory and the remaining index. -/
def shlTail (m : Mem) (dest src rem offset index bits : Nat) : Option (Mem × Nat) :=
  if bits % 64 ≠ 0 then do
    let value ← shlWord m src rem (index - 1)
    return (← wr m (dest + (index - 1 + offset)) (value &&& lowMask bits), index - 1)
  else some (m, index)

/-- `if (offset) memset(…)`, bitmap.c:204-205 and 248-250. -/
def shiftFill (m : Mem) (at_ offset : Nat) : Option Mem := if offset ≠ 0 then zeroWords offset m at_ else some m

/-- `bfdev_bitmap_comp_shl`, bitmap.c:160-206. -/
def compShl (m : Mem) (dest src shift bits : Nat) : Option Mem := do
  let length := bitsToLong bits
  let offset := shift / 64
  if length ≤ offset then zeroWords length m dest
  else
    let rem := shift % 64
    let (m, index) ← shlTail m dest src rem offset (length - offset) bits
    let m ← shlLoop dest src rem offset index m
    shiftFill m dest offset

/-- `if (rem && index + offset + 1 < length) vhigh = …`, bitmap.c:231-234 and 243-246. -/
def shrHigh (m : Mem) (src rem offset length index : Nat) : Option Word :=
  if rem ≠ 0 ∧ index + offset + 1 < length then (rd m (src + (index + offset + 1))).map (fun (v : Word) => v <<< (64 - rem)) else some 0

/-- `while (index < bits / 64 - offset)`, bitmap.c:228-238; the first argument counts the iterations left. -/
def shrLoop (dest src rem offset length : Nat) : Nat → Nat → Mem → Option Mem
  | 0, _, m => some m
  | n + 1, index, m => do
    let vlow := (← rd m (src + (index + offset))) >>> rem
    let vhigh ← shrHigh m src rem offset length index
    shrLoop dest src rem offset length n (index + 1) (← wr m (dest + index) (vhigh ||| vlow))

/-- `if (BFDEV_BITS_MOD_LONG(bits))`: the partial word of a right shift, bitmap.c:240-246. -/
def shrTail (m : Mem) (dest src rem offset length index bits : Nat) : Option Mem :=
  if bits % 64 ≠ 0 then do
    let vlow := (← rd m (src + index)) <<< rem
    let vhigh ← shrHigh m src rem offset length index
    wr m (dest + (index + offset)) ((vhigh ||| vlow) &&& lowMask bits)
  else some m

/-- `bfdev_bitmap_comp_shr`, bitmap.c:208-251. When `length > offset`, `bits / 64 - offset` does not wrap. -/
def compShr (m : Mem) (dest src shift bits : Nat) : Option Mem := do
  let length := bitsToLong bits
  let offset := shift / 64
  if length ≤ offset then zeroWords length m dest
  else
    let rem := shift % 64
    let index := bits / 64 - offset
    let m ← shrLoop dest src rem offset length index 0 m
    let m ← shrTail m dest src rem offset length index bits
    shiftFill m (dest + (length - offset)) offset

/-! ### Ranges -/

/-- `while (bits - bits_to_set) …`, bitmap.c:306-311 and 330-335 with the word update `f word mask`. -/
def rangeLoop (f : Word → Word → Word) : Nat → Mem → Nat → Nat → Nat → Word → Option (Mem × Nat × Nat × Word)
  | 0, _, _, _, _, _ => none
  | fuel + 1, m, curr, bits, step, mask =>
    if (bits + (2 ^ 32 - step)) % 2 ^ 32 ≠ 0 then do
      let m ← wr m curr (f (← rd m curr) mask)
      rangeLoop f fuel m (curr + 1) ((bits + (2 ^ 32 - step)) % 2 ^ 32) 64 (BitVec.allOnes 64)
    else some (m, curr, bits, mask)

/-- The common body of bitmap.c:293-316 and 318-341. The loop writes one more word of memory in each iteration, so fuel
`m.length + 1` is enough: a loop that does not stop within it has left memory. -/
def compRange (f : Word → Word → Word) (m : Mem) (bitmap start bits : Nat) : Option Mem := do
  let (m, curr, rest, mask) ← rangeLoop f (m.length + 1) m (bitmap + start / 64) bits (64 - start % 64) (highMask start)
  if rest ≠ 0 then wr m curr (f (← rd m curr) (mask &&& lowMask (start + bits))) else return m

/-- `bfdev_bitmap_comp_set`, bitmap.c:293-316. -/
def compSet (m : Mem) (bitmap start bits : Nat) : Option Mem := compRange (fun w k => w ||| k) m bitmap start bits
/-- `bfdev_bitmap_comp_clr`, bitmap.c:318-341. -/
def compClr (m : Mem) (bitmap start bits : Nat) : Option Mem := compRange (fun w k => w &&& ~~~k) m bitmap start bits

/-! ### Single bits, asm-generic/bitops.h -/

/-- `bfdev_arch_bit_clr`, asm-generic/bitops.h:17-25. -/
def bitClr (m : Mem) (a b : Nat) : Option Mem := do wr m (a + b / 64) ((← rd m (a + b / 64)) &&& ~~~bit b)
/-- `bfdev_arch_bit_set`, asm-generic/bitops.h:27-35. -/
def bitSet (m : Mem) (a b : Nat) : Option Mem := do wr m (a + b / 64) ((← rd m (a + b / 64)) ||| bit b)
/-- `bfdev_arch_bit_flip`, asm-generic/bitops.h:37-45. -/
def bitFlip (m : Mem) (a b : Nat) : Option Mem := do wr m (a + b / 64) ((← rd m (a + b / 64)) ^^^ bit b)
/-- `bfdev_arch_bit_change`, asm-generic/bitops.h:47-58. -/
def bitChange (m : Mem) (a b : Nat) (val : Bool) : Option Mem := if val then bitSet m a b else bitClr m a b
/-- `bfdev_arch_bit_test`, asm-generic/bitops.h:60-68. -/
def bitTest (m : Mem) (a b : Nat) : Option Bool := do return ((← rd m (a + b / 64)) &&& bit b) != 0
/-- `bfdev_arch_bit_test_clr`, asm-generic/bitops.h:70-81 (and the sequential effect of the atomic form, 143-158). -/
def bitTestClr (m : Mem) (a b : Nat) : Option (Mem × Bool) := do return (← bitClr m a b, ← bitTest m a b)
/-- `bfdev_arch_bit_test_set`, asm-generic/bitops.h:83-94. -/
def bitTestSet (m : Mem) (a b : Nat) : Option (Mem × Bool) := do return (← bitSet m a b, ← bitTest m a b)
/-- `bfdev_arch_bit_test_flip`, asm-generic/bitops.h:96-107. -/
def bitTestFlip (m : Mem) (a b : Nat) : Option (Mem × Bool) := do return (← bitFlip m a b, ← bitTest m a b)
/-- `bfdev_arch_bit_test_change`, asm-generic/bitops.h:109-123. -/
def bitTestChange (m : Mem) (a b : Nat) (val : Bool) : Option (Mem × Bool) := do return (← bitChange m a b val, ← bitTest m a b)

/-! ### Searches, bitwalk.c -/

/-- `bfdev_swab64` on a word: exchange the bytes end for end. -/
def swab (v : Word) : Word := (List.range 8).foldl (fun r k => r ||| ((v >>> (8 * k)) &&& 0xff#64) <<< (56 - 8 * k)) 0

/-- `swap ? bfdev_swab(w) : w`, bitwalk.c:19-22. -/
def sw (swap : Bool) (v : Word) : Word := if swap then swab v else v

/-- `for (base = 0; base < bits; base += 64) …`, bitwalk.c:18-34. -/
def firstLoop (m : Mem) (bits : Nat) (invert : Word) (swap : Bool) : Nat → Nat → Nat → Option Nat
  | 0, _, _ => none
  | fuel + 1, block, base =>
    if base < bits then do
      let w ← rd m block
      let value := sw swap w ^^^ invert
      if value = 0 then firstLoop m bits invert swap fuel (block + 1) ((base + 64) % 2 ^ 32)
      else do
        let offset := base + (← ffsuf value)
        if bits ≤ offset then return bits else return offset
    else return bits
/-- `bfdev_comp_find_first_bit`, bitwalk.c:11-38; fuel `bits + 1` exceeds the number of iterations when `bits ≤ 2^32 - 64`. -/
def compFindFirst (m : Mem) (block bits : Nat) (invert : Word) (swap : Bool) : Option Nat := firstLoop m bits invert swap (bits + 1) block 0

/-- The masked word of bitwalk.c:54-60. -/
def lastWord (m : Mem) (block : Nat) (invert : Word) (swap : Bool) (base : Nat) (mask : Word) : Option Word :=
  (rd m (block + base)).map (fun w => (sw swap w ^^^ invert) &&& mask)

/-- `do … while (base--)`, bitwalk.c:53-69; `base` counts down. -/
def lastLoop (m : Mem) (block bits : Nat) (invert : Word) (swap : Bool) : Nat → Word → Option Nat
  | 0, mask => do
    let value ← lastWord m block invert swap 0 mask
    if value = 0 then return bits else (flsuf value).map (0 * 64 + ·)
  | base + 1, mask => do
    let value ← lastWord m block invert swap (base + 1) mask
    if value = 0 then lastLoop m block bits invert swap base (BitVec.allOnes 64) else (flsuf value).map ((base + 1) * 64 + ·)
/-- `bfdev_comp_find_last_bit`, bitwalk.c:40-72. -/
def compFindLast (m : Mem) (block bits : Nat) (invert : Word) (swap : Bool) : Option Nat :=
  if bits = 0 then some 0 else lastLoop m block bits invert swap ((bits - 1) / 64) (lowMask bits)

/-- `value = addr1[i]; if (addr2) value &= addr2[i]; value ^= invert`, bitwalk.c:84-87. -/
def fetch (m : Mem) (addr1 : Nat) (addr2 : Option Nat) (invert : Word) (i : Nat) : Option Word := do
  let v ← rd m (addr1 + i)
  let v ← match addr2 with
    | some a => (rd m (a + i)).map (v &&& ·)
    | none => some v
  return v ^^^ invert

/-- `while (!value) …`, bitwalk.c:96-105. `none` as `start` of the result: not found. -/
def nextLoop (m : Mem) (addr1 : Nat) (addr2 : Option Nat) (bits : Nat) (invert : Word) : Nat → Nat → Word → Option (Option (Nat × Word))
  | 0, _, _ => none
  | fuel + 1, start, value =>
    if value = 0 then do
      let start := (start + 64) % 2 ^ 32
      if bits ≤ start then return none
      else nextLoop m addr1 addr2 bits invert fuel start (← fetch m addr1 addr2 invert (start / 64))
    else some (some (start, value))

/-- `bfdev_comp_find_next_bit`, bitwalk.c:74-111. -/
def compFindNext (m : Mem) (addr1 : Nat) (addr2 : Option Nat) (bits start : Nat) (invert : Word) (swap : Bool) : Option Nat :=
  if bits ≤ start then some bits
  else do
    let value ← fetch m addr1 addr2 invert (start / 64)
    let mask := highMask start
    let mask := sw swap mask
    match ← nextLoop m addr1 addr2 bits invert (bits + 1) (start / 64 * 64) (value &&& mask) with
    | none => return bits
    | some (start, value) =>
      let value := sw swap value
      return min (start + (← ffsuf value)) bits

/-- `while (!value) …`, bitwalk.c:135-144: `start -= 64` wraps around. -/
def prevLoop (m : Mem) (addr1 : Nat) (addr2 : Option Nat) (bits : Nat) (invert : Word) : Nat → Nat → Word → Option (Option (Nat × Word))
  | 0, _, _ => none
  | fuel + 1, start, value =>
    if value = 0 then do
      let start := (start + (2 ^ 32 - 64)) % 2 ^ 32
      if bits ≤ start then return none
      else prevLoop m addr1 addr2 bits invert fuel start (← fetch m addr1 addr2 invert (start / 64))
    else some (some (start, value))

/-- `bfdev_comp_find_prev_bit`, bitwalk.c:113-150. -/
def compFindPrev (m : Mem) (addr1 : Nat) (addr2 : Option Nat) (bits start : Nat) (invert : Word) (swap : Bool) : Option Nat :=
  if bits ≤ start then some bits
  else do
    let value ← fetch m addr1 addr2 invert (start / 64)
    let mask := lowMask (start + 1)
    let mask := sw swap mask
    match ← prevLoop m addr1 addr2 bits invert (bits + 1) (start / 64 * 64) (value &&& mask) with
    | none => return bits
    | some (start, value) =>
      let value := sw swap value
      return min (start + (← flsuf value)) bits

/-! ### Inline searches, bitwalk.h -/

/-- `bfdev_find_first_bit`, bitwalk.h:25-40. -/
def findFirstBit (const : Bool) (m : Mem) (a bits : Nat) : Option Nat :=
  if !constSmall const bits then compFindFirst m a bits 0 false
  else do
    let value := (← rd m a) &&& lowMask bits
    if value = 0 then return bits else ffsuf value
/-- `bfdev_find_last_bit`, bitwalk.h:43-58. -/
def findLastBit (const : Bool) (m : Mem) (a bits : Nat) : Option Nat :=
  if !constSmall const bits then compFindLast m a bits 0 false
  else do
    let value := (← rd m a) &&& lowMask bits
    if value = 0 then return bits else flsuf value
/-- `bfdev_find_first_zero`, bitwalk.h:68-83. -/
def findFirstZero (const : Bool) (m : Mem) (a bits : Nat) : Option Nat :=
  if !constSmall const bits then compFindFirst m a bits (BitVec.allOnes 64) false
  else do
    let value := (← rd m a) ||| highMask bits
    if value = BitVec.allOnes 64 then return bits else ffzuf value
/-- `bfdev_find_last_zero`, bitwalk.h:86-101. -/
def findLastZero (const : Bool) (m : Mem) (a bits : Nat) : Option Nat :=
  if !constSmall const bits then compFindLast m a bits (BitVec.allOnes 64) false
  else do
    let value := (← rd m a) ||| highMask bits
    if value = BitVec.allOnes 64 then return bits else flzuf value
/-- `bfdev_find_next_bit`, bitwalk.h:112-131. -/
def findNextBit (const : Bool) (m : Mem) (a bits offset : Nat) : Option Nat :=
  if !constSmall const bits then compFindNext m a none bits offset 0 false
  else if bits ≤ offset then some bits
  else do
    let value := (← rd m a) &&& (← bitRange (bits - 1) offset)
    if value = 0 then return bits else ffsuf value
/-- `bfdev_find_prev_bit`, bitwalk.h:132-149. -/
def findPrevBit (const : Bool) (m : Mem) (a bits offset : Nat) : Option Nat :=
  if !constSmall const bits then compFindPrev m a none bits offset 0 false
  else if bits ≤ offset then some bits
  else do
    let value := (← rd m a) &&& lowMask (offset + 1)
    if value = 0 then return bits else flsuf value
/-- `bfdev_find_next_zero`, bitwalk.h:162-179. -/
def findNextZero (const : Bool) (m : Mem) (a bits offset : Nat) : Option Nat :=
  if !constSmall const bits then compFindNext m a none bits offset (BitVec.allOnes 64) false
  else if bits ≤ offset then some bits
  else do
    let value := (← rd m a) ||| ~~~(← bitRange (bits - 1) offset)
    if value = BitVec.allOnes 64 then return bits else ffzuf value
/-- `bfdev_find_prev_zero`, bitwalk.h:183-200. -/
def findPrevZero (const : Bool) (m : Mem) (a bits offset : Nat) : Option Nat :=
  if !constSmall const bits then compFindPrev m a none bits offset (BitVec.allOnes 64) false
  else if bits ≤ offset then some bits
  else do
    let value := (← rd m a) ||| highMask (offset + 1)
    if value = BitVec.allOnes 64 then return bits else flzuf value
/-- `bfdev_find_next_and_bit`, bitwalk.h:214-231. -/
def findNextAndBit (const : Bool) (m : Mem) (a1 a2 bits offset : Nat) : Option Nat :=
  if bits ≤ offset then some bits
  else if !constSmall const bits then compFindNext m a1 (some a2) bits offset 0 false
  else do
    let value := (← rd m a1) &&& (← rd m a2) &&& (← bitRange (bits - 1) offset)
    if value = 0 then return bits else ffsuf value
/-- `bfdev_find_prev_and_bit`, bitwalk.h:235-252. -/
def findPrevAndBit (const : Bool) (m : Mem) (a1 a2 bits offset : Nat) : Option Nat :=
  if !constSmall const bits then compFindPrev m a1 (some a2) bits offset 0 false
  else if bits ≤ offset then some bits
  else do
    let value := (← rd m a1) &&& (← rd m a2) &&& lowMask (offset + 1)
    if value = 0 then return bits else flsuf value

/-- `bfdev_for_each_bit`, bitwalk.h:255-258, collecting the indices; `first` and `next` are the two searches. -/
def walkLoop (bits : Nat) (next : Nat → Option Nat) : Nat → Nat → Option (List Nat)
  | 0, _ => none
  | fuel + 1, index => if index < bits then do return index :: (← walkLoop bits next fuel (← next index)) else some []
def forEachBit (const : Bool) (m : Mem) (a bits : Nat) : Option (List Nat) := do
  walkLoop bits (fun i => findNextBit const m a bits ((i + 1) % 2 ^ 32)) (bits + 1) (← findFirstBit const m a bits)
/-- `bfdev_for_each_bit_reverse`, bitwalk.h:265-268; `index - 1` wraps around. -/
def forEachBitReverse (const : Bool) (m : Mem) (a bits : Nat) : Option (List Nat) := do
  walkLoop bits (fun i => findPrevBit const m a bits ((i + (2 ^ 32 - 1)) % 2 ^ 32)) (bits + 1) (← findLastBit const m a bits)

/-! ### Inline operations, bitmap.h -/

/-- `bfdev_bitmap_empty`, bitmap.h:39-49. -/
def bmEmpty (const : Bool) (m : Mem) (s bits : Nat) : Option Bool :=
  if constSmall const bits then do return (← rd m s) &&& lowMask bits == 0
  else if !constAligned const bits then do return decide (bits ≤ (← findFirstBit const m s bits))
  else do return !(← memdiff (bits / 8) m (8 * s) 0)
/-- `bfdev_bitmap_full`, bitmap.h:51-61. -/
def bmFull (const : Bool) (m : Mem) (s bits : Nat) : Option Bool :=
  if constSmall const bits then do return ~~~(← rd m s) &&& lowMask bits == 0
  else if !constAligned const bits then do return decide (bits ≤ (← findFirstZero const m s bits))
  else do return !(← memdiff (bits / 8) m (8 * s) 0xff)
/-- `bfdev_bitmap_equal`, bitmap.h:63-74. -/
def bmEqual (const : Bool) (m : Mem) (s1 s2 bits : Nat) : Option Bool :=
  if constSmall const bits then do return ((← rd m s1) ^^^ (← rd m s2)) &&& lowMask bits != 0
  else if !constAligned const bits then compEqual m s1 s2 bits
  else memcmp (bits / 8) m (8 * s1) (8 * s2)
/-- `bfdev_bitmap_or_equal`, bitmap.h:76-87. -/
def bmOrEqual (const : Bool) (m : Mem) (s1 s2 s3 bits : Nat) : Option Bool :=
  if !constSmall const bits then compOrEqual m s1 s2 s3 bits
  else do return (((← rd m s1) ||| (← rd m s2)) ^^^ (← rd m s3)) &&& lowMask bits != 0
/-- `bfdev_bitmap_intersects`, bitmap.h:89-100. -/
def bmIntersects (const : Bool) (m : Mem) (s1 s2 bits : Nat) : Option Bool :=
  if !constSmall const bits then compIntersects m s1 s2 bits
  else do return (← rd m s1) &&& (← rd m s2) &&& lowMask bits != 0
/-- `bfdev_bitmap_and`, bitmap.h:102-113. -/
def bmAnd (const : Bool) (m : Mem) (d s1 s2 bits : Nat) : Option (Mem × Bool) :=
  if !constSmall const bits then compAnd m d s1 s2 bits
  else do
    let value := (← rd m s1) &&& (← rd m s2) &&& lowMask bits
    return (← wr m d value, value != 0)
/-- `bfdev_bitmap_andnot`, bitmap.h:115-126. -/
def bmAndnot (const : Bool) (m : Mem) (d s1 s2 bits : Nat) : Option (Mem × Bool) :=
  if !constSmall const bits then compAndnot m d s1 s2 bits
  else do
    let value := (← rd m s1) &&& ~~~(← rd m s2) &&& lowMask bits
    return (← wr m d value, value != 0)
/-- `bfdev_bitmap_or`, bitmap.h:128-139. -/
def bmOr (const : Bool) (m : Mem) (d s1 s2 bits : Nat) : Option Mem :=
  if !constSmall const bits then compOr m d s1 s2 bits
  else do wr m d (((← rd m s1) ||| (← rd m s2)) &&& lowMask bits)
/-- `bfdev_bitmap_xor`, bitmap.h:141-152. -/
def bmXor (const : Bool) (m : Mem) (d s1 s2 bits : Nat) : Option Mem :=
  if !constSmall const bits then compXor m d s1 s2 bits
  else do wr m d (((← rd m s1) ^^^ (← rd m s2)) &&& lowMask bits)
/-- `bfdev_bitmap_complement`, bitmap.h:180-191. -/
def bmComplement (const : Bool) (m : Mem) (d s bits : Nat) : Option Mem :=
  if !constSmall const bits then compComplement m d s bits
  else do wr m d (~~~(← rd m s) &&& lowMask bits)
/-- `bfdev_bitmap_shl`, bitmap.h:154-165; the shift is undefined from 64 on. -/
def bmShl (const : Bool) (m : Mem) (d s shift bits : Nat) : Option Mem :=
  if !constSmall const bits then compShl m d s shift bits
  else if shift < 64 then do wr m d (((← rd m s) <<< shift) &&& lowMask bits) else none
/-- `bfdev_bitmap_shr`, bitmap.h:167-178. -/
def bmShr (const : Bool) (m : Mem) (d s shift bits : Nat) : Option Mem :=
  if !constSmall const bits then compShr m d s shift bits
  else if shift < 64 then do wr m d (((← rd m s) &&& lowMask bits) >>> shift) else none
/-- `bfdev_bitmap_set`, bitmap.h:193-209; `cs`, `cb`: are start and bits compile-time constants? -/
def bmSet (cs cb : Bool) (m : Mem) (bitmap start bits : Nat) : Option Mem :=
  if cb && decide (bits = 1) then bitSet m bitmap start
  else if !constAligned cs start || !constAligned cb bits then compSet m bitmap start bits
  else memset (bits / 8) m (8 * bitmap + start / 8) 0xff
/-- `bfdev_bitmap_clr`, bitmap.h:211-227. -/
def bmClr (cs cb : Bool) (m : Mem) (bitmap start bits : Nat) : Option Mem :=
  if cb && decide (bits = 1) then bitClr m bitmap start
  else if !constAligned cs start || !constAligned cb bits then compClr m bitmap start bits
  else memset (bits / 8) m (8 * bitmap + start / 8) 0
/-- `bfdev_bitmap_zero`, bitmap.h:229-241 (`BFDEV_BITS_TO_U8` computes in `size_t`). -/
def bmZero (const : Bool) (m : Mem) (bitmap bits : Nat) : Option Mem :=
  if constSmall const bits then wr m bitmap 0 else memset ((bits + 7) / 8) m (8 * bitmap) 0
/-- `bfdev_bitmap_fill`, bitmap.h:243-255. -/
def bmFill (const : Bool) (m : Mem) (bitmap bits : Nat) : Option Mem :=
  if constSmall const bits then wr m bitmap (BitVec.allOnes 64) else memset ((bits + 7) / 8) m (8 * bitmap) 0xff
/-- `bfdev_bitmap_copy`, bitmap.h:257-269. -/
def bmCopy (const : Bool) (m : Mem) (d s bits : Nat) : Option Mem :=
  if constSmall const bits then do wr m d (← rd m s) else memcpy ((bits + 7) / 8) m (8 * d) (8 * s)

end Bfdev.Bitmap

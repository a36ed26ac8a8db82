/-
Model of the bit scans (`include/bfdev/asm-generic/bitops.h`, `include/bfdev/asm-generic/builtin-*.h`), logarithm and
power-of-two helpers (`include/bfdev/log2.h`), masks (`include/bfdev/bits.h`), alignment (`include/bfdev/align.h`)
and rotations. Words are 64-bit (`BFDEV_BITS_PER_LONG == 64`). `none` stands for undefined behaviour.
-/
namespace Bfdev.Scan

abbrev Word := BitVec 64

/-! ### Generic scans -/

/-- One halving step of `bfdev_arch_ffsuf`, asm-generic/bitops.h:361-364: `if ((value & mask) == 0) { shift += k; value >>= k; }`. -/
def ffStep (k : Nat) (st : Nat × Word) : Nat × Word :=
  if st.2 &&& BitVec.ofNat 64 (2 ^ k - 1) = 0 then (st.1 + k, st.2 >>> k) else st

/-- Generic `bfdev_arch_ffsuf`, asm-generic/bitops.h:354-394 (the last step's shift of `value` is dead code there and harmless here). -/
def ffsufGeneric (value : Word) : Nat :=
  (ffStep 1 (ffStep 2 (ffStep 4 (ffStep 8 (ffStep 16 (ffStep 32 (0, value))))))).1

/-- One halving step of `bfdev_arch_flsuf`, asm-generic/bitops.h:408-411: `if (!(value & (~0ul << (64 - k)))) { shift -= k; value <<= k; }`. -/
def flStep (k : Nat) (st : Nat × Word) : Nat × Word :=
  if st.2 &&& (BitVec.allOnes 64 <<< (64 - k)) = 0 then (st.1 - k, st.2 <<< k) else st

/-- Generic `bfdev_arch_flsuf`, asm-generic/bitops.h:401-436. -/
def flsufGeneric (value : Word) : Nat :=
  (flStep 1 (flStep 2 (flStep 4 (flStep 8 (flStep 16 (flStep 32 (63, value))))))).1

/-- Generic `bfdev_arch_ffs`, asm-generic/bitops.h:470-479. -/
def ffsGeneric (value : Word) : Nat := if value = 0 then 0 else ffsufGeneric value + 1

/-- Generic `bfdev_arch_fls`, asm-generic/bitops.h:485-494. -/
def flsGeneric (value : Word) : Nat := if value = 0 then 0 else flsufGeneric value + 1

/-- Generic `bfdev_arch_ctz`, asm-generic/bitops.h:530-541. -/
def ctzGeneric (value : Word) : Nat :=
  if value = BitVec.allOnes 64 then 0 else if value = 0 then 64 else ffsufGeneric value

/-- Generic `bfdev_arch_clz`, asm-generic/bitops.h:547-558. -/
def clzGeneric (value : Word) : Nat :=
  if value = BitVec.allOnes 64 then 0 else if value = 0 then 64 else 64 - 1 - flsufGeneric value

/-! ### Compiler builtins and the functions the default build uses -/

/-- `__builtin_ctzl` as documented by the compiler: number of trailing zero bits, undefined for zero. Part of the trusted base. -/
def builtinCtz (v : Word) : Option Nat := (List.range 64).find? (fun i => v.getLsbD i)

/-- `__builtin_clzl` as documented by the compiler: number of leading zero bits, undefined for zero. Part of the trusted base. -/
def builtinClz (v : Word) : Option Nat := (List.range 64).find? (fun i => v.getLsbD (63 - i))

/-- `__builtin_ffsl`: one plus the index of the least significant one bit, or zero. Part of the trusted base. -/
def builtinFfs (v : Word) : Nat := match builtinCtz v with
  | some i => i + 1
  | none => 0

/-- `bfdev_arch_ctz`, asm-generic/builtin-ctz.h:15-19. -/
def ctz (v : Word) : Option Nat := builtinCtz v
/-- `bfdev_arch_clz`, asm-generic/builtin-clz.h:15-19. -/
def clz (v : Word) : Option Nat := builtinClz v
/-- `bfdev_arch_ffs`, asm-generic/builtin-ffs.h:15-19. -/
def ffs (v : Word) : Nat := builtinFfs v
/-- `bfdev_arch_ffsuf`, asm-generic/builtin-ffsuf.h:15-19. -/
def ffsuf (v : Word) : Option Nat := builtinCtz v
/-- `bfdev_arch_fls`, asm-generic/builtin-fls.h:15-19. -/
def fls (v : Word) : Option Nat := if v ≠ 0 then (builtinClz v).map (fun n => 64 - n) else some 0
/-- `bfdev_arch_flsuf`, asm-generic/builtin-flsuf.h:15-19. -/
def flsuf (v : Word) : Option Nat := (builtinClz v).map (fun n => 64 - 1 - n)
/-- `bfdev_arch_ffzuf`, asm-generic/bitops.h:443-450. -/
def ffzuf (v : Word) : Option Nat := ffsuf (~~~v)
/-- `bfdev_arch_flzuf`, asm-generic/bitops.h:457-464. -/
def flzuf (v : Word) : Option Nat := flsuf (~~~v)
/-- `bfdev_arch_ffz`, asm-generic/bitops.h:500-509. -/
def ffz (v : Word) : Nat := if v = BitVec.allOnes 64 then 0 else ffs (~~~v)
/-- `bfdev_arch_flz`, asm-generic/bitops.h:515-524. -/
def flz (v : Word) : Option Nat := if v = BitVec.allOnes 64 then some 0 else fls (~~~v)

/-- `bfdev_arch_bit_clr` on one word (bit below 64), asm-generic/bitops.h:17-24. -/
def bitClr (w : Word) (bit : Nat) : Word := w &&& ~~~(1#64 <<< bit)

/-- Loop of `bfdev_arch_ffnsp`, asm-generic/bitops.h:571-576; `scan` is the bit scan of the loop. The counter wraps as `unsigned int`. -/
def nthLoop (scan : Word → Option Nat) : Nat → Word → Nat → Option (Nat × Nat)
  | 0, _, _ => none
  | fuel + 1, word, nr =>
    if word = 0 then some (64, nr)
    else do
      let bit ← scan word
      let nr' := (nr + (2 ^ 32 - 1)) % 2 ^ 32
      if nr = 0 then return (bit, nr') else nthLoop scan fuel (bitClr word bit) nr'

/-- `bfdev_arch_ffnsp`, asm-generic/bitops.h:560-579: returned bit and final `*nr`. The fuel 65 exceeds the number of iterations (proved). -/
def ffnsp (word : Word) (nr : Nat) : Option (Nat × Nat) :=
  if word = BitVec.allOnes 64 then some (nr, nr) else nthLoop ffsuf 65 word nr

/-- `bfdev_arch_flnsp`, asm-generic/bitops.h:581-600. -/
def flnsp (word : Word) (nr : Nat) : Option (Nat × Nat) :=
  if word = BitVec.allOnes 64 then some (nr, nr) else nthLoop flsuf 65 word nr

/-- `bfdev_arch_ffnzp`, asm-generic/bitops.h:602-609. -/
def ffnzp (word : Word) (nr : Nat) : Option (Nat × Nat) := ffnsp (~~~word) nr
/-- `bfdev_arch_flnzp`, asm-generic/bitops.h:611-618. -/
def flnzp (word : Word) (nr : Nat) : Option (Nat × Nat) := flnsp (~~~word) nr

/-! ### log2.h -/

/-- `bfdev_ilog2_dynamic`, log2.h:90-97 (and `bfdev_ilog2_64_dynamic`, log2.h:103-110, the same on this target). -/
def ilog2Dynamic (v : Word) : Option Nat := if v.toNat < 2 then some 0 else (fls v).map (fun n => n - 1)

/-- `bfdev_ilog2_const`, log2.h:18-84: the chain of tests from bit 63 down to bit 2, then 1. -/
def ilog2Chain (v : Word) : Nat → Nat
  | 0 => 1
  | 1 => 1
  | n + 2 => if v.getLsbD (n + 2) then n + 2 else ilog2Chain v (n + 1)
/-- `bfdev_ilog2_const`, log2.h:18-84. -/
def ilog2Const (v : Word) : Nat := if v.toNat < 2 then 0 else ilog2Chain v 63

/-- The constant branch of `bfdev_ilog2`, log2.h:152-159. -/
def ilog2Builtin (v : Word) : Option Nat := if v.toNat < 2 then some 0 else (builtinClz v).map (fun n => 63 - n)

/-- `1UL << n`: undefined for a shift count of 64 or more. -/
def shl1 (n : Nat) : Option Word := if n < 64 then some (1#64 <<< n) else none

/-- `bfdev_pow2_roundup_dynamic`, log2.h:116-123. -/
def pow2Roundup (v : Word) : Option Word := if v.toNat < 2 then some v else (fls (v - 1)).bind shl1

/-- The constant branch of `bfdev_pow2_roundup`, log2.h:169-174. -/
def pow2RoundupConst (v : Word) : Option Word :=
  if v.toNat < 2 then some v else (ilog2Builtin (v - 1)).bind (fun n => shl1 (n + 1))

/-- `bfdev_pow2_rounddown_dynamic`, log2.h:129-136. -/
def pow2Rounddown (v : Word) : Option Word := if v.toNat < 2 then some v else (fls v).bind (fun n => shl1 (n - 1))

/-- The constant branch of `bfdev_pow2_rounddown`, log2.h:184-189. -/
def pow2RounddownConst (v : Word) : Option Word := if v.toNat < 2 then some v else (ilog2Builtin v).bind shl1

/-- `bfdev_pow2_check`, log2.h:142-146. -/
def pow2Check (v : Word) : Bool := v != 0 && (v &&& (v - 1)) == 0

/-! ### align.h, at type `unsigned long` -/

/-- `bfdev_align_check`, align.h:22-24. -/
def alignCheck (v a : Word) : Bool := (v &&& (a - 1)) == 0
/-- `bfdev_align_low`, align.h:40-42. -/
def alignLow (v a : Word) : Word := v &&& ~~~(a - 1)
/-- `bfdev_align_high`, align.h:49-52. -/
def alignHigh (v a : Word) : Word := (v + (a - 1)) &&& ~~~(a - 1)

/-! ### bits.h -/

/-- `BFDEV_BIT_LOW_MASK`, bits.h:40-43; `-n & 63` is `(64 - n % 64) % 64`. -/
def lowMask (n : Nat) : Word := BitVec.allOnes 64 >>> ((64 - n % 64) % 64)
/-- `BFDEV_BIT_HIGH_MASK`, bits.h:52-55. -/
def highMask (n : Nat) : Word := BitVec.allOnes 64 <<< (n % 64)
/-- `BFDEV_BIT`, bits.h:61-63. -/
def bit (n : Nat) : Word := 1#64 <<< (n % 64)
/-- `BFDEV_BIT_RANGE`, bits.h:96-99; undefined unless both shift counts are below 64. -/
def bitRange (hi lo : Nat) : Option Word :=
  if lo < 64 ∧ hi < 64 then some ((BitVec.allOnes 64 - (1#64 <<< lo) + 1) &&& (BitVec.allOnes 64 >>> (64 - 1 - hi))) else none

/-! ### Rotations -/

/-- `bfdev_arch_rol{8,16,32,64}`, asm-generic/bitops.h:242-249, 270-277, 298-305, 326-333, for a power-of-two width `w`:
`(value << (shift & (w-1))) | (value >> (-shift & (w-1)))`; the masks are written as remainders. -/
def rol (w : Nat) (v : BitVec w) (shift : Nat) : BitVec w := (v <<< (shift % w)) ||| (v >>> ((w - shift % w) % w))
/-- `bfdev_arch_ror{8,16,32,64}`, asm-generic/bitops.h:256-263, 284-291, 312-319, 340-347. -/
def ror (w : Nat) (v : BitVec w) (shift : Nat) : BitVec w := (v >>> (shift % w)) ||| (v <<< ((w - shift % w) % w))

end Bfdev.Scan

import Verif.Common.Mem
import Verif.Common.Loop
/-!
Model of `src/textsearch/`. `unsigned int` values are naturals below 2^32. Simplified: `toupper` and `tolower` are those of the C locale and
leave bytes above 127 alone.
-/
namespace Bfdev.Textsearch

/-- `toupper` of the C library. -/
def upper (c : Byte) : Byte := if 97 ≤ c ∧ c ≤ 122 then c - 32 else c
/-- `tolower` of the C library. -/
def lower (c : Byte) : Byte := if 65 ≤ c ∧ c ≤ 90 then c + 32 else c
/-- A character as it is compared, kmp.c:42, and as it is stored in the pattern, kmp.c:109-112. -/
def fold (icase : Bool) (c : Byte) : Byte := if icase then upper c else c

def UINT_MAX : Nat := 4294967295
def w32 (n : Nat) : Nat := n % 4294967296

/-! ### Knuth-Morris-Pratt -/

/-- `while (match && pattern[match] != c) match = prefix_table[match - 1]`, kmp.c:59-60 and 83-84; fuel bounds the iterations. -/
def fall (pat : List Byte) (tbl : List Nat) (c : Byte) : Nat → Nat → Option Nat
  | 0, _ => none
  | fuel + 1, m =>
    if m = 0 then some 0
    else pat[m]?.bind fun x => if x ≠ c then tbl[m - 1]?.bind (fall pat tbl c fuel) else some m

/-- The same followed by `if (pattern[match] == c) match++`, kmp.c:59-63 and 83-87. -/
def advance (pat : List Byte) (tbl : List Nat) (c : Byte) (m : Nat) : Option Nat :=
  (fall pat tbl c (m + 1) m).bind fun m => pat[m]?.map fun x => if x = c then m + 1 else m

/-- Body of the loop of `kmp_compute_prefix`, kmp.c:82-90; the loop starts at index 1. -/
def prefixBody (pat : List Byte) (i : Nat) (s : Nat × List Nat) : Option (Nat × List Nat) :=
  pat[i + 1]?.bind fun c =>
  (advance pat s.2 c s.1).bind fun m =>
  (setIdx s.2 (i + 1) m).map fun tbl => (m, tbl)

/-- `struct kmp_context`, kmp.c:9-14. -/
structure Kmp where
  icase : Bool
  pattern : List Byte
  table : List Nat
deriving DecidableEq

/-- `kmp_prepare`, kmp.c:93-116, when the memory is available. No result when the 32-bit size of the table wraps (kmp.c:100). -/
def kmpPrepare (pattern : List Byte) (icase : Bool) : Option Kmp :=
  let pat := pattern.map (fold icase)
  if 4 * pattern.length ≥ 4294967296 then none
  else (forN (pattern.length - 1) (prefixBody pat) (0, List.replicate pattern.length 0)).map fun s => ⟨icase, pat, s.2⟩

/-- The loop over one block, kmp.c:58-69: the index at which the match ends, or the match state after the block. -/
def scanBlock (k : Kmp) : List Byte → Nat → Nat → Option (Nat ⊕ Nat)
  | [], _, m => some (.inr m)
  | t :: ts, index, m =>
    (advance k.pattern k.table (fold k.icase t) m).bind fun m =>
    if m = k.pattern.length then some (.inl index) else scanBlock k ts (index + 1) m

/-- `kmp_find`, kmp.c:39-75: return value and new offset. `next c` is the block the callback delivers at position `c`. -/
def kmpLoop (k : Kmp) (next : Nat → List Byte) (offset : Nat) : Nat → Nat → Nat → Option (Nat × Nat)
  | 0, _, _ => none
  | fuel + 1, consumed, m =>
    let text := next consumed
    if text = [] then some (UINT_MAX, offset)
    else (scanBlock k text 0 m).bind fun r =>
      match r with
      | .inl index =>
        let off := w32 (consumed + index + 1)
        some (w32 (off + 4294967296 - k.pattern.length), off)
      | .inr m => kmpLoop k next offset fuel (w32 (consumed + text.length)) m

def kmpFind (k : Kmp) (next : Nat → List Byte) (offset fuel : Nat) : Option (Nat × Nat) := kmpLoop k next offset fuel offset 0

/-- `linear_next`, linear.c:10-23. -/
def linearNext (data : List Byte) (consumed : Nat) : List Byte := if consumed < data.length then data.drop consumed else []

/-! ### Sunday -/

/-- `struct sunday_context`, sunday.c:9-14. -/
structure Sunday where
  icase : Bool
  pattern : List Byte
  shifts : List Nat

/-- Storing `v` for a character of the pattern and, ignoring the case, for its lower case form: sunday.c:88-92, bm.c:107-111. -/
def setShift (icase : Bool) (tbl : List Nat) (c : Byte) (v : Nat) : Option (List Nat) :=
  (setIdx tbl c.toNat v).bind fun tbl => if icase then setIdx tbl (lower c).toNat v else some tbl

/-- Body of the second loop of `sunday_compute_prefix`, sunday.c:87-93. -/
def sundayBody (icase : Bool) (pat : List Byte) (index : Nat) (tbl : List Nat) : Option (List Nat) :=
  pat[index]?.bind fun c => setShift icase tbl c (pat.length - index)

/-- `sunday_prepare`, sunday.c:96-117; the table has `UINT8_MAX` entries, that is 255. -/
def sundayPrepare (pattern : List Byte) (icase : Bool) : Option Sunday :=
  let pat := pattern.map (fold icase)
  (forN pattern.length (sundayBody icase pat) (List.replicate 255 (pattern.length + 1))).map fun t => ⟨icase, pat, t⟩

/-- The comparison loop of `sunday_find`, sunday.c:59-62: the index of the first difference. -/
def cmpFrom (icase : Bool) (mem : List Byte) : List Byte → Nat → Option Nat
  | [], _ => some 0
  | p :: ps, pos => mem[pos]?.bind fun t => if p ≠ fold icase t then some 0 else (cmpFrom icase mem ps (pos + 1)).map (· + 1)

/-- `sunday_find`, sunday.c:39-77, over a single block of `length` bytes starting at `mem` (which may be longer); after it the callback
delivers nothing more. -/
def sundayLoop (k : Sunday) (mem : List Byte) (length : Nat) : Nat → Nat → Option Nat
  | 0, _ => none
  | fuel + 1, shift =>
    if w32 (k.pattern.length + shift) ≤ length then
      (cmpFrom k.icase mem k.pattern shift).bind fun index =>
      if index = k.pattern.length then some shift
      else if k.pattern.length ≥ length then some UINT_MAX
      else
        mem[shift + k.pattern.length]?.bind fun t =>
        k.shifts[t.toNat]?.bind fun d => sundayLoop k mem length fuel (w32 (shift + d))
    else some UINT_MAX

def sundayFind (k : Sunday) (mem : List Byte) (length fuel : Nat) : Option Nat :=
  if length = 0 then some UINT_MAX else sundayLoop k mem length fuel 0

/-! ### Boyer-Moore -/

/-- `struct bm_context`, bm.c:9-15. -/
structure Bm where
  icase : Bool
  pattern : List Byte
  bad : List Nat
  good : List Nat

/-- The loop of `subpattern`, bm.c:88-93. -/
def subLoop (pat : List Byte) (index : Nat) (j : Int) : Nat → Nat → Nat → Option Bool
  | 0, _, _ => none
  | g + 1, x, y =>
    if y = 0 then some false
    else pat[x]?.bind fun a => pat[y]?.bind fun b =>
      if a ≠ b then some false
      else if g = 0 then
        if j - 1 < 0 then none
        else pat[index - 1]?.bind fun a => pat[(j - 1).toNat]?.map fun b => a ≠ b
      else subLoop pat index j g (x - 1) (y - 1)

/-- `subpattern`, bm.c:80-96. The test `y < 0` never holds, since the loop is left at zero. -/
def subpattern (pat : List Byte) (index : Nat) (j : Int) (g : Nat) : Option Bool :=
  subLoop pat index j g (index + g - 1) (j + g - 1).toNat

/-- The inner loop over `count`, bm.c:119-124; the first argument is the number of its iterations left. -/
def goodInner (pat : List Byte) (index start : Nat) : Nat → Int → List Nat → Option (List Nat)
  | 0, _, good => some good
  | n + 1, count, good =>
    (subpattern pat index count start).bind fun hit =>
    if hit then (if count < 0 then none else setIdx good count.toNat (pat.length - start - count.toNat))
    else goodInner pat index start n (count - 1) good

/-- Body of the loop over `index` and `start`, bm.c:118-125. -/
def goodBody (pat : List Byte) (i : Nat) (good : List Nat) : Option (List Nat) :=
  let index := pat.length - 1 - i
  goodInner pat index (i + 1) (pat.length - 1) ((index : Int) - 1) good

/-- The good suffix table, bm.c:114-125. -/
def goodTable (pat : List Byte) : Option (List Nat) :=
  (setIdx (List.replicate pat.length pat.length) 0 1).bind (forN (pat.length - 1) (goodBody pat))

/-- Body of the second loop, bm.c:106-112. -/
def badBody (icase : Bool) (pat : List Byte) (index : Nat) (tbl : List Nat) : Option (List Nat) :=
  pat[index]?.bind fun c => setShift icase tbl c (pat.length - index - 1)

/-- `bm_prepare`, bm.c:128-151, with `bm_compute_prefix`, bm.c:98-126. -/
def bmPrepare (pattern : List Byte) (icase : Bool) : Option Bm :=
  let pat := pattern.map (fold icase)
  if pattern = [] then none
  else
    (forN (pattern.length - 1) (badBody icase pat) (List.replicate 255 pattern.length)).bind fun bad =>
    (goodTable pat).map fun good => ⟨icase, pat, bad, good⟩

/-- The comparison loop of `bm_find`, bm.c:61-64, from the end: number of characters that agree. -/
def cmpBack (k : Bm) (mem : List Byte) (shift : Nat) : Nat → Nat → Option Nat
  | 0, index => some index
  | n + 1, index =>
    k.pattern[n]?.bind fun p => mem[shift - index]?.bind fun t =>
    if p ≠ fold k.icase t then some index else cmpBack k mem shift n (index + 1)

/-- `bm_find`, bm.c:40-78, over a single block. -/
def bmLoop (k : Bm) (mem : List Byte) : Nat → Nat → Option Nat
  | 0, _ => none
  | fuel + 1, shift =>
    if shift < mem.length then
      (cmpBack k mem shift k.pattern.length 0).bind fun index =>
      if index = k.pattern.length then some (shift + 1 - k.pattern.length)
      else
        mem[shift - index]?.bind fun t =>
        k.bad[t.toNat]?.bind fun b =>
        k.good[index]?.bind fun g => bmLoop k mem fuel (max (w32 (shift - index + b)) (w32 (shift + g)))
    else some UINT_MAX

def bmFind (k : Bm) (mem : List Byte) (fuel : Nat) : Option Nat :=
  if mem = [] then some UINT_MAX else bmLoop k mem fuel (k.pattern.length - 1)

end Bfdev.Textsearch

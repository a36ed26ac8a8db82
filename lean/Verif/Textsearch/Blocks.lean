import Verif.Textsearch.Spec
/-!
Model of the searches over several blocks and of the repeated search, `include/bfdev/textsearch.h`. A block is the memory it lies in, which may be longer,
and its length.
-/
namespace Bfdev.Textsearch

/-- A call of the callback `next_block`: at a position of the text, the block there; length 0 at the end. -/
abbrev Source := Nat → List Byte × Nat

/-- A contiguous text of `length` bytes, `linear_next` of linear.c:10-23. -/
def linearSource (mem : List Byte) (length : Nat) : Source := fun c => if c < length then (mem.drop c, length - c) else ([], 0)

/-- The loop over one block, sunday.c:58-71: the shift at which the pattern is found, or the shift left for the next block. -/
def sundayBlock (k : Sunday) (mem : List Byte) (length : Nat) : Nat → Nat → Option (Nat ⊕ Nat)
  | 0, _ => none
  | fuel + 1, shift =>
    if w32 (k.pattern.length + shift) ≤ length then
      (cmpFrom k.icase mem k.pattern shift).bind fun index =>
      if index = k.pattern.length then some (.inl shift)
      else if k.pattern.length ≥ length then some (.inr shift)
      else
        mem[shift + k.pattern.length]?.bind fun t =>
        k.shifts[t.toNat]?.bind fun d => sundayBlock k mem length fuel (w32 (shift + d))
    else some (.inr shift)

/-- The loop over the blocks of `sunday_find`, sunday.c:53-74; `f` bounds the loop over a block. -/
def sundayBlocks (k : Sunday) (next : Source) (f : Nat) : Nat → Nat → Nat → Option Nat
  | 0, _, _ => none
  | fuel + 1, consumed, shift =>
    let b := next consumed
    if b.2 = 0 then some UINT_MAX
    else (sundayBlock k b.1 b.2 f shift).bind fun r =>
      match r with
      | .inl s => some (w32 (consumed + s))
      | .inr s => sundayBlocks k next f fuel (w32 (consumed + b.2)) s

/-- `sunday_find`, sunday.c:39-77: the result and the offset in the search state, which is not written. -/
def sundayAt (k : Sunday) (next : Source) (fuel offset : Nat) : Option (Nat × Nat) := (sundayBlocks k next fuel fuel offset 0).map (·, offset)

/-- The loop over one block, bm.c:60-72. -/
def bmBlock (k : Bm) (mem : List Byte) (length : Nat) : Nat → Nat → Option (Nat ⊕ Nat)
  | 0, _ => none
  | fuel + 1, shift =>
    if shift < length then
      (cmpBack k mem shift k.pattern.length 0).bind fun index =>
      if index = k.pattern.length then some (.inl shift)
      else
        mem[shift - index]?.bind fun t =>
        k.bad[t.toNat]?.bind fun b =>
        k.good[index]?.bind fun g => bmBlock k mem length fuel (max (w32 (shift - index + b)) (w32 (shift + g)))
    else some (.inr shift)

/-- The loop over the blocks of `bm_find`, bm.c:55-75. -/
def bmBlocks (k : Bm) (next : Source) (f : Nat) : Nat → Nat → Nat → Option Nat
  | 0, _, _ => none
  | fuel + 1, consumed, shift =>
    let b := next consumed
    if b.2 = 0 then some UINT_MAX
    else (bmBlock k b.1 b.2 f shift).bind fun r =>
      match r with
      | .inl s => some (w32 (consumed + s + 1 + (4294967296 - k.pattern.length)))
      | .inr s => bmBlocks k next f fuel (w32 (consumed + b.2)) s

/-- `bm_find`, bm.c:40-78. -/
def bmAt (k : Bm) (next : Source) (fuel offset : Nat) : Option (Nat × Nat) := (bmBlocks k next fuel fuel offset (k.pattern.length - 1)).map (·, offset)

/-- The results of `bfdev_textsearch_find` (textsearch.h:145-154) and of `n - 1` calls of `bfdev_textsearch_next` (textsearch.h:168-176) after it,
stopping when nothing is found; `find` maps the offset in the search state to the result and the new offset. -/
def results (find : Nat → Option (Nat × Nat)) : Nat → Nat → Option (List Nat)
  | 0, _ => some []
  | n + 1, offset =>
    (find offset).bind fun r => if r.1 = UINT_MAX then some [] else (results find n r.2).map (r.1 :: ·)

/-- The occurrences a repeated search should report: the first one, then the first one behind it that does not overlap it, and so on. -/
inductive Greedy (icase : Bool) (pattern text : List Byte) : Nat → List Nat → Prop
  | done {o} : (∀ q, o ≤ q → ¬ OccursAt icase pattern text q) → Greedy icase pattern text o []
  | step {o p l} : FirstFrom icase pattern text o p → Greedy icase pattern text (p + pattern.length) l → Greedy icase pattern text o (p :: l)

end Bfdev.Textsearch

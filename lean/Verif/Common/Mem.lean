/-
Shared conventions: bytes, 64-bit machine words as naturals below `2^64`, and flat memory blocks in which every
access outside the block is a distinct outcome (`none`).
-/
namespace Bfdev

abbrev Byte := BitVec 8

/-- Number of values of `unsigned long` / `size_t` on the LP64 target. -/
abbrev W64 : Nat := 18446744073709551616

/-- Reduction of an arithmetic result to `unsigned long`. -/
def w64 (n : Nat) : Nat := n % W64

/-- `a - b` in `unsigned long` (for `a b < 2^64`). -/
def wsub (a b : Nat) : Nat := (a + W64 - b) % W64

/-- Bytes `[off, off + len)` of a memory block, `none` when the range leaves the block. A zero-length access is
accepted at any offset up to the end (`memcpy` of zero bytes). -/
def rd {α} (m : List α) (off len : Nat) : Option (List α) :=
  if off + len ≤ m.length then some ((m.drop off).take len) else none

/-- Store the bytes `src` at offset `off`, `none` when the range leaves the block. -/
def wr {α} (m : List α) (off : Nat) (src : List α) : Option (List α) :=
  if off + src.length ≤ m.length then some (m.take off ++ src ++ m.drop (off + src.length)) else none

theorem rd_eq_some {α} {m : List α} {off len : Nat} (h : off + len ≤ m.length) :
    rd m off len = some ((m.drop off).take len) := by simp [rd, h]

theorem wr_eq_some {α} {m : List α} {off : Nat} {src : List α} (h : off + src.length ≤ m.length) :
    wr m off src = some (m.take off ++ src ++ m.drop (off + src.length)) := by simp [wr, h]

theorem splice_length {α} (m : List α) (off : Nat) (src : List α) (h : off + src.length ≤ m.length) :
    (m.take off ++ src ++ m.drop (off + src.length)).length = m.length := by
  simp; omega

theorem splice_getElem? {α} (m : List α) (off : Nat) (src : List α) (h : off + src.length ≤ m.length) (i : Nat) :
    (m.take off ++ src ++ m.drop (off + src.length))[i]? =
      if off ≤ i ∧ i < off + src.length then src[i - off]? else m[i]? := by
  rw [List.append_assoc, List.getElem?_append]
  have hl : (m.take off).length = off := by simp; omega
  rw [hl]
  split
  · rename_i h1
    rw [List.getElem?_take, if_pos h1, if_neg (by omega)]
  · rename_i h1
    rw [List.getElem?_append]
    split
    · rename_i h2; rw [if_pos (by omega)]
    · rename_i h2
      rw [if_neg (by omega), List.getElem?_drop]
      congr 1; omega

end Bfdev

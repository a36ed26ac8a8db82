import Verif.Common.Mem
/-
Model of `src/sort.c`. Offsets are byte offsets as in the code, 64-bit arithmetic; the array is a list of elements of `cells`
bytes. `none` stands for touching something that is not an element of the array, or a loop that does not end.
-/
namespace Bfdev.Sort

/-- `base + off` as an element: defined only when `off` is the start of an element of the array. -/
def idx (cells len off : Nat) : Option Nat := if off % cells = 0 ∧ off / cells < len then some (off / cells) else none

/-- Read the element at a byte offset. -/
def get {α : Type} (cells : Nat) (arr : List α) (off : Nat) : Option α := (idx cells arr.length off).bind (fun i => arr[i]?)

/-- `sort_swap`, src/sort.c:10-21. -/
def swap {α : Type} (cells : Nat) (arr : List α) (o1 o2 : Nat) : Option (List α) := do
  let i ← idx cells arr.length o1
  let j ← idx cells arr.length o2
  let x ← arr[i]?
  let y ← arr[j]?
  return (arr.set i y).set j x

/-- `-x` on `size_t`. -/
def wneg (x : Nat) : Nat := (W64 - x % W64) % W64

/-- `parent`, src/sort.c:23-29; the parameter `lsbit` is an `unsigned int`. -/
def parent (cells lsbit index : Nat) : Nat :=
  let index := wsub index cells
  let index := wsub index (cells &&& wneg (index &&& (lsbit % 2 ^ 32)))
  index >>> 1

/-- The descent to a leaf, src/sort.c:54-56; returns `idx2`, `idx3`, `idx4` at loop exit. -/
def descend {α : Type} (cmp : α → α → Int) (cells size : Nat) (arr : List α) : Nat → Nat → Option (Nat × Nat × Nat)
  | 0, _ => none
  | fuel + 1, idx2 =>
    let idx3 := w64 (2 * idx2 + cells)
    let idx4 := w64 (idx3 + cells)
    if idx4 < size then do
      let x ← get cells arr idx3
      let y ← get cells arr idx4
      descend cmp cells size arr fuel (if cmp x y ≥ 0 then idx3 else idx4)
    else some (idx2, idx3, idx4)

/-- The climb back, src/sort.c:61-62. -/
def climb {α : Type} (cmp : α → α → Int) (cells lsbit : Nat) (arr : List α) (idx1 : Nat) : Nat → Nat → Option Nat
  | 0, _ => none
  | fuel + 1, idx2 =>
    if idx1 ≠ idx2 then do
      let x ← get cells arr idx1
      let y ← get cells arr idx2
      if cmp x y ≥ 0 then climb cmp cells lsbit arr idx1 fuel (parent cells lsbit idx2) else some idx2
    else some idx2

/-- The rotation along the path, src/sort.c:64-68. -/
def rotate {α : Type} (cells lsbit idx1 idx3 : Nat) : Nat → Nat → List α → Option (List α)
  | 0, _, _ => none
  | fuel + 1, idx2, arr =>
    if idx1 ≠ idx2 then do
      let idx2 := parent cells lsbit idx2
      let arr ← swap cells arr idx2 idx3
      rotate cells lsbit idx1 idx3 fuel idx2 arr
    else some arr

/-- One sift: the loop body after the selection, src/sort.c:53-68. -/
def sift {α : Type} (cmp : α → α → Int) (cells lsbit size idx1 : Nat) (arr : List α) : Option (List α) := do
  let (idx2, idx3, idx4) ← descend cmp cells size arr (arr.length + 1) idx1
  let idx2 := if idx4 = size then idx3 else idx2
  let idx2 ← climb cmp cells lsbit arr idx1 (arr.length + 1) idx2
  rotate cells lsbit idx1 idx2 (arr.length + 1) idx2 arr

/-- The main loop, src/sort.c:45-69. -/
def mainLoop {α : Type} (cmp : α → α → Int) (cells lsbit : Nat) : Nat → Nat → Nat → List α → Option (List α)
  | 0, _, _, _ => none
  | fuel + 1, idx1, size, arr =>
    if idx1 ≠ 0 then do
      let idx1 := wsub idx1 cells
      let arr ← sift cmp cells lsbit size idx1 arr
      mainLoop cmp cells lsbit fuel idx1 size arr
    else
      let size := wsub size cells
      if size ≠ 0 then do
        let arr ← swap cells arr 0 size
        let arr ← sift cmp cells lsbit size idx1 arr
        mainLoop cmp cells lsbit fuel idx1 size arr
      else some arr

/-- `bfdev_sort` with a non-null array and comparator, src/sort.c:31-72. The flag is success (`false`: `-EINVAL`). -/
def sort {α : Type} (cmp : α → α → Int) (cells : Nat) (arr : List α) : Option (List α × Bool) :=
  let num := arr.length
  let idx1 := w64 ((num >>> 1) * cells)
  if idx1 = 0 then some (arr, false)
  else do
    let size := w64 (num * cells)
    let lsbit := cells &&& wneg cells
    let arr ← mainLoop cmp cells lsbit (2 * num) idx1 size arr
    return (arr, true)

end Bfdev.Sort

import Verif.Common.Mem
import Verif.Scan.Model
/-
Model of `src/array.c` and `include/bfdev/array.h` over `src/allocator.c`'s `bfdev_realloc`.
`none` stands for undefined behaviour or the `BFDEV_BUG_ON` abort. A pointer into the array's block is its byte offset.
-/
namespace Bfdev.Array

/-- `bfdev_array_t`, array.h:31-37; `data = none` is the null pointer, `some m` a live block with contents `m`. -/
structure Arr where
  cells : Nat
  capacity : Nat
  index : Nat
  data : Option (List Byte)
deriving DecidableEq, Repr

/-- What the allocator does when asked: refuse (`none`), or hand out a block whose fresh bytes are given by the function. -/
abbrev Grant := Option (Nat → Byte)

/-- Outcome of `bfdev_realloc`. -/
inductive Realloc where
  | ok (m : List Byte)
  | failed
  | freed

/-- `bfdev_realloc`, src/allocator.c:76-98: a null block is allocated (size zero refused, l.44-45), a zero size frees the
block and returns null, otherwise the contents are kept and the rest is unspecified. -/
def realloc (g : Grant) (block : Option (List Byte)) (size : Nat) : Realloc :=
  match block with
  | none => if size = 0 then .failed else match g with
    | none => .failed
    | some junk => .ok ((List.range size).map junk)
  | some m => if size = 0 then .freed else match g with
    | none => .failed
    | some junk => .ok ((List.range size).map (fun i => m.getD i (junk i)))

/-- `array_reqsize`, src/array.c:12-22. -/
def reqsize (a : Arr) (count : Nat) : Option Nat :=
  let request := max 32 count
  (Scan.pow2Roundup (BitVec.ofNat 64 (request * a.cells))).map BitVec.toNat

/-- `array_resize`, src/array.c:24-39; the flag is success. After a zero-size realloc the old block is gone while `data`
still points to it: a block of no bytes. -/
def arrResize (a : Arr) (size : Nat) (g : Grant) : Option (Arr × Bool) :=
  match realloc g a.data size with
  | .failed => some (a, false)
  | .freed => some ({ a with data := some [] }, false)
  | .ok m => if a.cells = 0 then none else some ({ a with data := some m, capacity := size / a.cells }, true)

/-- `array_apply`, src/array.c:41-53. -/
def apply (a : Arr) (count : Nat) (g : Grant) : Option (Arr × Bool) :=
  if count ≤ a.capacity then some (a, true)
  else do
    let size ← reqsize a count
    if w64 (count * a.cells) > size then none else arrResize a size g

/-- `bfdev_array_offset`, array.h:108-112. -/
def offset (a : Arr) (index : Nat) : Nat := w64 (a.cells * index)

/-- `array->data + offset`: null stays null (the code only adds zero to a null block). -/
def ptr (a : Arr) (off : Nat) : Option Nat := a.data.map (fun _ => off)

/-- `array_peek`, src/array.c:55-72: new index and pointer, or `none` on underflow. -/
def peekAt (a : Arr) (num : Nat) : Option (Nat × Option Nat) :=
  if a.index < num then none else some (a.index - num, ptr a (offset a (a.index - num)))

/-- `bfdev_array_push`, src/array.c:74-95. The second component is the returned pointer. -/
def push (a : Arr) (num : Nat) (g : Grant) : Option (Arr × Option Nat) :=
  if a.index + num ≥ W64 then some (a, none)
  else do
    let count := a.index + num
    let (a', ok) ← apply a count g
    if ok then
      let index := a'.index
      let a'' := { a' with index := count }
      return (a'', ptr a'' (offset a'' index))
    else return (a', none)

/-- `bfdev_array_pop`, src/array.c:97-101. -/
def pop (a : Arr) (num : Nat) : Arr × Option Nat :=
  match peekAt a num with
  | none => (a, none)
  | some (i, p) => ({ a with index := i }, p)

/-- `bfdev_array_peek`, src/array.c:103-107. -/
def peek (a : Arr) (num : Nat) : Option Nat := (peekAt a num).bind (·.2)

/-- `bfdev_array_data`, array.h:122-129. -/
def dataAt (a : Arr) (index : Nat) : Option Nat := if index ≥ a.index then none else ptr a (offset a index)

/-- `bfdev_array_resize`, src/array.c:109-121 (flag: success). -/
def resize (a : Arr) (num : Nat) (g : Grant) : Option (Arr × Bool) := do
  let (a', ok) ← apply a num g
  if ok then return ({ a' with index := num }, true) else return (a', false)

/-- `bfdev_array_reserve`, src/array.c:123-134 (flag: success). -/
def reserve (a : Arr) (num : Nat) (g : Grant) : Option (Arr × Bool) :=
  if a.index + num ≥ W64 then some (a, false) else apply a (a.index + num) g

/-- `bfdev_array_reset`, array.h:67-71. -/
def reset (a : Arr) : Arr := { a with index := 0 }

/-- `bfdev_array_release`, src/array.c:136-147. -/
def release (a : Arr) : Arr := { a with capacity := 0, index := 0, data := none }

/-- `bfdev_array_init`, array.h:54-58. -/
def init (cells : Nat) : Arr := { cells, capacity := 0, index := 0, data := none }

/-! ### Client programs: calls with the reads and writes the caller performs through the returned pointers -/

inductive Op where
  /-- push room for the elements and, when the pointer is not null, store them there -/
  | push (elems : List (List Byte)) (g : Grant)
  /-- pop `n` elements and read them through the returned pointer -/
  | pop (n : Nat)
  /-- the same without removing them -/
  | peek (n : Nat)
  /-- read element `i` -/
  | get (i : Nat)
  | resize (n : Nat) (g : Grant)
  | reserve (n : Nat) (g : Grant)
  | getIndex
  | reset
  | release

inductive Out where
  | ok (b : Bool)
  | bytes (b : Option (List Byte))
  | count (n : Nat)
deriving DecidableEq, Repr

/-- Read `n` elements through a pointer; leaving the block is undefined behaviour. -/
def readPtr (a : Arr) (p : Option Nat) (n : Nat) : Option (Option (List Byte)) :=
  match p, a.data with
  | none, _ => some none
  | some off, some m => (rd m off (n * a.cells)).map some
  | some _, none => none

/-- Store bytes through a pointer. -/
def writePtr (a : Arr) (p : Option Nat) (b : List Byte) : Option Arr :=
  match p, a.data with
  | none, _ => some a
  | some off, some m => (wr m off b).map (fun m' => { a with data := some m' })
  | some _, none => none

def step (a : Arr) : Op → Option (Arr × Out)
  | .push es g => do
    let (a', p) ← push a es.length g
    let a'' ← writePtr a' p es.flatten
    return (a'', .ok p.isSome)
  | .pop n => do
    let (a', p) := pop a n
    let b ← readPtr a' p n
    return (a', .bytes b)
  | .peek n => do
    let b ← readPtr a (peek a n) n
    return (a, .bytes b)
  | .get i => do
    let b ← readPtr a (dataAt a i) 1
    return (a, .bytes b)
  | .resize n g => do
    let (a', ok) ← resize a n g
    return (a', .ok ok)
  | .reserve n g => do
    let (a', ok) ← reserve a n g
    return (a', .ok ok)
  | .getIndex => some (a, .count a.index)
  | .reset => some (reset a, .ok true)
  | .release => some (release a, .ok true)

def run (a : Arr) : List Op → Option (List Out)
  | [] => some []
  | op :: ops => do
    let (a', o) ← step a op
    let os ← run a' ops
    return o :: os

end Bfdev.Array

import Verif.Common.Mem
import Verif.Common.Loop
/-!
Model of `src/matrix.c`. The matrices of a program are held in a store indexed by their identity, so that destination and operands can be
the same object. Entries are machine words, dimensions `unsigned int`.
-/
namespace Bfdev.Matrix

abbrev Word := BitVec 64

/-- `struct bfdev_matrix`, matrix.h:23-28; `data` are the `value.index` entries of the backing array. -/
structure Mat where
  row : Nat
  col : Nat
  data : List Word
deriving DecidableEq

abbrev Store := Nat → Mat

/-- Assignment of one matrix of the store. -/
def put (st : Store) (i : Nat) (m : Mat) : Store := fun j => if j = i then m else st j

def EINVAL : Int := -22
def ENOMEM : Int := -12

/-- `row * col` in `unsigned int`. -/
def mulu (a b : Nat) : Nat := a * b % 4294967296

/-- `bfdev_array_resize`, array.c:109-120. `mem` is the answer of the allocator: `none` when it refuses, otherwise the contents of
the entries that come into being. Simplified: whether the spare capacity suffices is not tracked, so a refusal is possible whenever the
array grows. -/
def resize (l : List Word) (n : Nat) (mem : Option (Nat → Word)) : Option (List Word) :=
  if n ≤ l.length then some (l.take n)
  else mem.map fun junk => l ++ (List.range (n - l.length)).map junk

/-- Body of the loop of `GENERIC_MATRIX_ADDSUB`, matrix.c:55-56. -/
def addBody (op : Word → Word → Word) (dest a b : Nat) (count : Nat) (st : Store) : Option Store :=
  (st a).data[count]?.bind fun x =>
  (st b).data[count]?.bind fun y =>
  (setIdx (st dest).data count (op x y)).map fun l => put st dest { st dest with data := l }

/-- `GENERIC_MATRIX_ADDSUB`, matrix.c:23-59. -/
def addsub (op : Word → Word → Word) (st : Store) (dest a b : Nat) (mem : Option (Nat → Word)) : Option (Int × Store) :=
  let row := (st a).row
  let col := (st a).col
  if row ≠ (st b).row ∨ col ≠ (st b).col then some (EINVAL, st)
  else
    let size := mulu row col
    match resize (st dest).data size mem with
    | none => some (ENOMEM, st)
    | some l => (forN size (addBody op dest a b) (put st dest ⟨row, col, l⟩)).map fun st => (0, st)

/-- `bfdev_matrix_add`, matrix.c:61. -/
def add := addsub (· + ·)
/-- `bfdev_matrix_sub`, matrix.c:62. -/
def sub := addsub (· - ·)

/-- Innermost statement of `bfdev_matrix_mul`, matrix.c:105-106. -/
def mulBody (B : List Word) (C row col : Nat) (value : Word) (count : Nat) (d : List Word) : Option (List Word) :=
  B[col * C + count]?.bind fun y =>
  d[row * C + count]?.bind fun x =>
  setIdx d (row * C + count) (x + value * y)

/-- The loop over `col`, matrix.c:103-107. -/
def mulRow (A B : List Word) (K C row col : Nat) (d : List Word) : Option (List Word) :=
  A[row * K + col]?.bind fun value => forN C (mulBody B C row col value) d

/-- The loops of `bfdev_matrix_mul`, matrix.c:101-108, into the entries `d`. -/
def mulLoops (A B : List Word) (R K C : Nat) (d : List Word) : Option (List Word) :=
  forN R (fun row => forN K (mulRow A B K C row)) (List.replicate d.length 0)

/-- `bfdev_matrix_set`, matrix.c:150-174, with the source passed by value. -/
def setFrom (st : Store) (dest : Nat) (src : Mat) (mem : Option (Nat → Word)) : Option (Int × Store) :=
  let size := mulu src.row src.col
  match resize (st dest).data size mem with
  | none => some (ENOMEM, st)
  | some l => (rd src.data 0 size).bind fun s => (wr l 0 s).map fun l => (0, put st dest ⟨src.row, src.col, l⟩)

/-- `bfdev_matrix_set`, matrix.c:150-174. -/
def set (st : Store) (dest src : Nat) (mem : Option (Nat → Word)) : Option (Int × Store) := setFrom st dest (st src) mem

/-- `bfdev_matrix_import`, matrix.c:176-196. -/
def import' (st : Store) (dest : Nat) (buffer : List Word) (row col : Nat) (mem : Option (Nat → Word)) : Option (Int × Store) :=
  setFrom st dest ⟨row, col, buffer⟩ mem

/-- `bfdev_matrix_mul`, matrix.c:64-116. When the destination is an operand the product goes to a fresh matrix (allocator answer
`mem`) that is then copied (allocator answer `mem2`). -/
def mul (st : Store) (dest a b : Nat) (mem mem2 : Option (Nat → Word)) : Option (Int × Store) :=
  let va := st a
  let vb := st b
  if va.col ≠ vb.row then some (EINVAL, st)
  else
    let size := mulu va.row vb.col
    if dest = a ∨ dest = b then
      match resize [] size mem with
      | none => some (ENOMEM, st)
      | some l => (mulLoops va.data vb.data va.row va.col vb.col l).bind fun l => setFrom st dest ⟨va.row, vb.col, l⟩ mem2
    else
      match resize (st dest).data size mem with
      | none => some (ENOMEM, st)
      | some l => (mulLoops va.data vb.data va.row va.col vb.col l).map fun l => (0, put st dest ⟨va.row, vb.col, l⟩)

/-- Innermost statement of `bfdev_matrix_trans`, matrix.c:142-145: reads from the destination, stores into the source. `scol` is the row
length of the source when the pointers are set up. -/
def transBody (dest src scol dcol row col : Nat) (st : Store) : Option Store :=
  (st dest).data[col * scol + row]?.bind fun x =>
  (setIdx (st src).data (row * dcol + col) x).map fun l => put st src { st src with data := l }

/-- `bfdev_matrix_trans`, matrix.c:118-148. -/
def trans (st : Store) (dest src : Nat) (mem : Option (Nat → Word)) : Option (Int × Store) :=
  let col := (st src).row
  let row := (st src).col
  match resize (st dest).data (mulu row col) mem with
  | none => some (ENOMEM, st)
  | some l =>
    let st := put st dest ⟨row, col, l⟩
    (forN row (fun r => forN col (transBody dest src (st src).col col r)) st).map fun st => (0, st)

/-- `bfdev_matrix_data`, matrix.c:198-212: the index of the entry pointed to, `none` for NULL. -/
def data (m : Mat) (row col : Nat) : Option Nat :=
  if m.col < row ∨ m.col < col then none
  else
    let offset := mulu row col
    if offset ≥ m.data.length then none else some offset

end Bfdev.Matrix

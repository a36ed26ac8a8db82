/-
Model of `src/radix.c` and `include/bfdev/radix.h` (64-bit target: `BFDEV_RADIX_BLOCK = 256`, `BFDEV_RADIX_ARY = 32`).

Simplifications. Offsets are natural numbers below `2^64`. A tree of level `l` is a value of the type `Node l`: the union `struct
bfdev_radix_node` (radix.h:34-45) is a leaf at level 0 and a branch above, and the tree is a value, not a heap of pointers, so the array
`parents` is the stack of the recursion: `radix_parent` is the way down, the loops over `parents` are the way back. Each node carries the
address it was given by the allocator; the `k`-th call of the allocator answers `mem k` and gives the address `k`. A pointer into a leaf is
the address of the leaf and an index. Masks are written with `/` and `%` (see `Scan.masks_correct`), `bfdev_ilog2` is `Nat.log2` (see
`Scan.ilog2_correct`), the bit searches over the 256 bits of a leaf are searches in a list (see `Bitmap.find_next_bit` and the others).
Undefined behaviour, `BFDEV_BUG_ON` and endless loops are `none` or `ub`.
-/
namespace Bfdev.Radix

/-- A leaf, radix.h:40-43: its address and the bitmap. The 256 data bytes are the user's. -/
structure Leaf where
  id : Nat
  bits : Nat → Bool

/-- A branch, radix.h:36-39. -/
structure Branch (α : Type) where
  id : Nat
  child : Nat → Option α
  ref : Nat

/-- `struct bfdev_radix_node`, radix.h:34-45, at a level. -/
@[reducible] def Node : Nat → Type
  | 0 => Leaf
  | l + 1 => Branch (Node l)

/-- `struct bfdev_radix_root`, radix.h:28-32; `next` counts the calls of the allocator, `freed` lists the addresses given back to it. -/
structure Root where
  level : Nat
  node : Option (Node level)
  next : Nat
  freed : List Nat

/-- A pointer to `node->block[index]`: the address of the node and the index. -/
abbrev Ptr := Nat × Nat

/-- `radix_depth_shift`, radix.c:22-26. -/
def shift (level : Nat) : Nat := 5 * level + 8

/-- `radix_depth_index`, radix.c:28-32. -/
def depthIndex (level offset : Nat) : Nat := offset / 2 ^ shift level % 32

/-- A node from `bfdev_zalloc`, radix.c:110, 158. -/
def zero : (l : Nat) → Nat → Node l
  | 0, id => Leaf.mk id fun _ => false
  | _ + 1, id => Branch.mk id (fun _ => none) 0

/-- Replace an element of an array. -/
def set {α : Type} (f : Nat → α) (i : Nat) (x : α) : Nat → α := fun j => if j = i then x else f j

/-- `BFDEV_RADIX_STATIC`, radix.h:56-58. -/
def init : Root := ⟨0, none, 0, []⟩

/-- The way down of `radix_parent`, radix.c:53-67: the leaf and the index in it. -/
def walk : (l : Nat) → Node l → Nat → Option (Leaf × Nat)
  | 0, n, offset => some (n, offset)
  | l + 1, b, offset =>
    match Branch.child b (depthIndex l offset) with
    | none => none
    | some c => walk l c (offset % 2 ^ shift l)

/-- `bfdev_radix_root_find`, radix.c:70-90. The outer `none` is undefined behaviour: at level 12 `parents[12]` is written behind the
array (radix.c:48), in a tree of level 0 an index of 256 or more is behind the leaf. -/
def find (r : Root) (offset : Nat) : Option (Option Ptr) :=
  if offset.log2 > shift r.level then some none
  else if 12 ≤ r.level then none
  else match r.node with
    | none => some none
    | some n =>
      match walk r.level n offset with
      | none => some none
      | some (leaf, index) =>
        if 256 ≤ index then none
        else if leaf.bits index then some (some (leaf.id, index)) else some none

/-- `radix_extend`, radix.c:92-122; the flag says whether there was memory. -/
def extend (mem : Nat → Bool) : Nat → Root → Nat → Option (Root × Bool)
  | 0, _, _ => none
  | fuel + 1, ⟨l, some n, nx, fr⟩, offset =>
    if offset.log2 < shift l then some (⟨l, some n, nx, fr⟩, true)
    else if mem nx then
      extend mem fuel ⟨l + 1, some (Branch.mk nx (set (fun _ => none) 0 (some n)) 1), nx + 1, fr⟩ offset
    else some (⟨l, some n, nx + 1, fr⟩, false)
  | fuel + 1, ⟨l, none, nx, fr⟩, offset =>
    if mem nx then extend mem fuel ⟨l, some (zero l nx), nx + 1, fr⟩ offset
    else some (⟨l, none, nx + 1, fr⟩, false)

/-- The way down of `bfdev_radix_root_alloc`, radix.c:152-172: the changed tree, the pointer, the next address. -/
def allocIn (mem : Nat → Bool) : (l : Nat) → Node l → Nat → Nat → Option (Node l × Option Ptr × Nat)
  | 0, n, offset, nx =>
    if 256 ≤ offset then none
    else some (Leaf.mk (Leaf.id n) (set (Leaf.bits n) offset true), some (Leaf.id n, offset), nx)
  | l + 1, b, offset, nx =>
    match Branch.child b (depthIndex l offset) with
    | some c => do
      let (c', p, nx') ← allocIn mem l c (offset % 2 ^ shift l) nx
      some (Branch.mk (Branch.id b) (set (Branch.child b) (depthIndex l offset) (some c')) (Branch.ref b), p, nx')
    | none =>
      if mem nx then do
        let (c', p, nx') ← allocIn mem l (zero l nx) (offset % 2 ^ shift l) (nx + 1)
        some (Branch.mk (Branch.id b) (set (Branch.child b) (depthIndex l offset) (some c')) (Branch.ref b + 1), p, nx')
      else some (b, none, nx + 1)

/-- `bfdev_radix_root_alloc`, radix.c:143-175. -/
def alloc (mem : Nat → Bool) (r : Root) (offset : Nat) : Option (Root × Option Ptr) := do
  let (r, ok) ← extend mem 64 r offset
  if ok then
    match r with
    | ⟨_, none, _, _⟩ => none
    | ⟨l, some n, nx, fr⟩ => do
      let (n', p, nx') ← allocIn mem l n offset nx
      some (⟨l, some n', nx', fr⟩, p)
  else some (r, none)

/-- `bfdev_bitmap_empty(node->bitmap, BFDEV_RADIX_BLOCK)`, radix.c:196. -/
def empty (n : Leaf) : Bool := (List.range 256).all fun i => !n.bits i

/-- `n - 1` on an `unsigned int`. -/
def dec32 (n : Nat) : Nat := (n + (2 ^ 32 - 1)) % 2 ^ 32

/-- What the loop of `bfdev_radix_root_free` has done with a node when it leaves its level. -/
inductive Pruned (α : Type) where
  | ub
  /-- The walk ended before a leaf. -/
  | absent
  /-- The node stays; the level at which the loop was left, if it was entered at all. -/
  | kept (n : α) (stop : Option Nat) (freed : List Nat)
  /-- The node was given back; `offset` as masked so far. -/
  | gone (offset : Nat) (freed : List Nat)

/-- `radix_parent` and the loop of `bfdev_radix_root_free`, radix.c:187-217: `offset` is the part of the offset inside the node, `whole` the
offset the function was called with. -/
def freeIn : (l : Nat) → Node l → Nat → Nat → Pruned (Node l)
  | 0, n, offset, whole =>
    if 256 ≤ offset then .ub
    else
      let n' := Leaf.mk (Leaf.id n) (set (Leaf.bits n) offset false)
      if empty n' then
        let whole := whole / 2 ^ shift 0 * 2 ^ shift 0
        if whole < 256 then .kept n' (some 0) [] else .gone whole [Leaf.id n]
      else .kept n' none []
  | l + 1, b, offset, whole =>
    match Branch.child b (depthIndex l offset) with
    | none => .absent
    | some c =>
      match freeIn l c (offset % 2 ^ shift l) whole with
      | .ub => .ub
      | .absent => .absent
      | .kept c' stop fr => .kept (Branch.mk (Branch.id b) (set (Branch.child b) (depthIndex l offset) (some c')) (Branch.ref b)) stop fr
      | .gone whole fr =>
        let ref := dec32 (Branch.ref b)
        let b' := Branch.mk (Branch.id b) (set (Branch.child b) (depthIndex l offset) none) ref
        if ref ≠ 0 then .kept b' (some (l + 1)) fr
        else
          let whole := whole / 2 ^ shift (l + 1) * 2 ^ shift (l + 1)
          if whole < 256 then .kept b' (some (l + 1)) fr else .gone whole (fr ++ [Branch.id b])

/-- `radix_shrink`, radix.c:124-141. -/
def shrink (nx : Nat) : (l : Nat) → Node l → List Nat → Root
  | 0, n, fr => ⟨0, some n, nx, fr⟩
  | l + 1, b, fr =>
    if Branch.ref b > 1 then ⟨l + 1, some b, nx, fr⟩
    else match Branch.child b 0 with
      | none => ⟨l + 1, some b, nx, fr⟩
      | some c => shrink nx l c (fr ++ [Branch.id b])

/-- `bfdev_radix_root_free`, radix.c:177-224. Pruning the root itself would read `parents[level + 1]`, which was never set. -/
def free (r : Root) (offset : Nat) : Option (Root × Int) :=
  if offset.log2 > shift r.level then some (r, -2)
  else if 12 ≤ r.level then none
  else match r with
    | ⟨_, none, _, _⟩ => some (r, -2)
    | ⟨l, some n, nx, fr⟩ =>
      match freeIn l n offset offset with
      | .ub => none
      | .absent => some (⟨l, some n, nx, fr⟩, -2)
      | .gone _ _ => none
      | .kept n' stop fr' =>
        if stop = some l then some (shrink nx l n' (fr ++ fr'), 0) else some (⟨l, some n', nx, fr ++ fr'⟩, 0)

/-- The loop of `bfdev_radix_root_charge`, radix.c:237-242. -/
def chargeLoop (mem : Nat → Bool) : Nat → Root → Nat → Nat → Option (Root × Int)
  | 0, _, _, _ => none
  | fuel + 1, r, offset, stop =>
    if offset < stop then do
      let (r, p) ← alloc mem r offset
      match p with
      | none => some (r, -12)
      | some _ => chargeLoop mem fuel r ((offset + 256) % 2 ^ 64) stop
    else some (r, 0)

/-- `bfdev_radix_root_charge`, radix.c:226-245; the fuel exceeds the number of steps unless the offset wraps around. -/
def charge (mem : Nat → Bool) (r : Root) (offset size : Nat) : Option (Root × Int) :=
  if 2 ^ 64 ≤ offset + size then some (r, -75) else chargeLoop mem (size / 256 + 2) r offset (offset + size)

/-- `radix_destroy_recurse`, radix.c:247-264: the addresses given back, in order. -/
def destroy : (l : Nat) → Node l → List Nat
  | 0, n => [Leaf.id n]
  | l + 1, b => ((List.range 32).flatMap fun i => match Branch.child b i with | none => [] | some c => destroy l c) ++ [Branch.id b]

/-- `bfdev_radix_root_release`, radix.c:264-274; giving back a null pointer does nothing. -/
def release : Root → Root
  | ⟨_, none, nx, fr⟩ => ⟨0, none, nx, fr⟩
  | ⟨l, some n, nx, fr⟩ => ⟨0, none, nx, fr ++ destroy l n⟩

/-- `bfdev_find_first_bit` and `bfdev_find_next_bit` on the bitmap of a leaf. -/
def nextBit (n : Leaf) (start : Nat) : Nat := ((List.range 256).find? fun i => start ≤ i && n.bits i).getD 256

/-- `bfdev_find_prev_bit` on the bitmap of a leaf. -/
def prevBit (n : Leaf) (start : Nat) : Nat :=
  if 256 ≤ start then 256 else ((List.range 256).reverse.find? fun i => i ≤ start && n.bits i).getD 256

/-- `bfdev_find_last_bit` on the bitmap of a leaf. -/
def lastBit (n : Leaf) : Nat := prevBit n 255

/-- `radix_left_most`, radix.c:276-297: the leaf and the offset; `none` if a branch has no children. -/
def leftMost : (l : Nat) → Node l → Nat → Option (Leaf × Nat)
  | 0, n, offset => some (n, offset)
  | l + 1, b, offset =>
    match (List.range 32).find? fun i => (Branch.child b i).isSome with
    | none => none
    | some i =>
      match Branch.child b i with
      | none => none
      | some c => leftMost l c (offset ||| i <<< shift l)

/-- `radix_right_most`, radix.c:299-321. -/
def rightMost : (l : Nat) → Node l → Nat → Option (Leaf × Nat)
  | 0, n, offset => some (n, offset)
  | l + 1, b, offset =>
    match (List.range 32).reverse.find? fun i => (Branch.child b i).isSome with
    | none => none
    | some i =>
      match Branch.child b i with
      | none => none
      | some c => rightMost l c (offset ||| i <<< shift l)

/-- `bfdev_radix_root_first`, radix.c:323-348: the pointer and the offset stored. -/
def first (r : Root) : Option (Option (Ptr × Nat)) :=
  match r.node with
  | none => some none
  | some n =>
    match leftMost r.level n 0 with
    | none => none
    | some (leaf, offset) =>
      if nextBit leaf 0 = 256 then some none else some (some ((leaf.id, nextBit leaf 0), offset ||| nextBit leaf 0))

/-- `bfdev_radix_root_last`, radix.c:350-375. -/
def last (r : Root) : Option (Option (Ptr × Nat)) :=
  match r.node with
  | none => some none
  | some n =>
    match rightMost r.level n 0 with
    | none => none
    | some (leaf, offset) =>
      if lastBit leaf = 256 then some none else some (some ((leaf.id, lastBit leaf), offset ||| lastBit leaf))

/-- What a step from one element to another has come to. -/
inductive Step where
  | ub
  | absent
  | found (p : Ptr) (offset : Nat)
  /-- Nothing more below this node. -/
  | up

/-- `*offsetp &= ~RADIX_BLOCK_MASK; *offsetp |= count`, radix.c:426-427. -/
def finish (offset count : Nat) : Nat := offset / 256 * 256 ||| count

/-- `*offsetp &= ~(RADIX_ARY_MASK << count); *offsetp |= index << count`, radix.c:408-409. -/
def setDigit (offset l index : Nat) : Nat := (offset - depthIndex l offset * 2 ^ shift l) ||| index <<< shift l

/-- `bfdev_radix_root_next`, radix.c:388-427, below a node. -/
def nextIn : (l : Nat) → Node l → Nat → Nat → Step
  | 0, n, offset, whole =>
    if 256 ≤ offset then .ub
    else if Leaf.bits n offset then
      if nextBit n (offset + 1) < 256 then .found (Leaf.id n, nextBit n (offset + 1)) (finish whole (nextBit n (offset + 1))) else .up
    else .absent
  | l + 1, b, offset, whole =>
    match Branch.child b (depthIndex l offset) with
    | none => .absent
    | some c =>
      match nextIn l c (offset % 2 ^ shift l) whole with
      | .up =>
        match (List.range 32).find? fun i => depthIndex l offset < i && (Branch.child b i).isSome with
        | none => .up
        | some i =>
          match Branch.child b i with
          | none => .ub
          | some c =>
            match leftMost l c (setDigit whole l i) with
            | none => .ub
            | some (leaf, whole) => .found (leaf.id, nextBit leaf 0) (finish whole (nextBit leaf 0))
      | s => s

/-- `bfdev_radix_root_prev`, radix.c:441-482, below a node; `index - 1` wraps around. -/
def prevIn : (l : Nat) → Node l → Nat → Nat → Step
  | 0, n, offset, whole =>
    if 256 ≤ offset then .ub
    else if Leaf.bits n offset then
      let count := prevBit n (dec32 offset)
      if count < 256 then .found (Leaf.id n, count) (finish whole count) else .up
    else .absent
  | l + 1, b, offset, whole =>
    match Branch.child b (depthIndex l offset) with
    | none => .absent
    | some c =>
      match prevIn l c (offset % 2 ^ shift l) whole with
      | .up =>
        match (List.range 32).reverse.find? fun i => i < depthIndex l offset && (Branch.child b i).isSome with
        | none => .up
        | some i =>
          match Branch.child b i with
          | none => .ub
          | some c =>
            match rightMost l c (setDigit whole l i) with
            | none => .ub
            | some (leaf, whole) => .found (leaf.id, lastBit leaf) (finish whole (lastBit leaf))
      | s => s

/-- The checks of `radix_parent` around a step from one element to another, radix.c:43-51. -/
def stepWith (f : (l : Nat) → Node l → Nat → Nat → Step) (r : Root) (offset : Nat) : Option (Option (Ptr × Nat)) :=
  if offset.log2 > shift r.level then some none
  else if 12 ≤ r.level then none
  else match r.node with
    | none => some none
    | some n =>
      match f r.level n offset offset with
      | .ub => none
      | .absent => some none
      | .up => some none
      | .found p o => some (some (p, o))

/-- `bfdev_radix_root_next`, radix.c:377-430: the pointer and the offset stored. -/
def next (r : Root) (offset : Nat) : Option (Option (Ptr × Nat)) := stepWith nextIn r offset

/-- `bfdev_radix_root_prev`, radix.c:432-485. -/
def prev (r : Root) (offset : Nat) : Option (Option (Ptr × Nat)) := stepWith prevIn r offset

/-- `bfdev_pow2_check`, log2.h:143-147. -/
def pow2Check (n : Nat) : Bool := n != 0 && n &&& (n - 1) == 0

/-- `bfdev_radix_offset`, radix.h:70-82; the products are taken modulo `2^64`. -/
def radixOffset (index cells : Nat) : Nat :=
  if pow2Check cells then index * cells % 2 ^ 64
  else (index / (256 / cells) * 256 + index % (256 / cells) * cells) % 2 ^ 64

/-- `bfdev_radix_index`, radix.h:84-96. -/
def radixIndex (offset cells : Nat) : Nat :=
  if pow2Check cells then offset / cells
  else offset / (256 / cells) / 256 + offset % (256 / cells) / cells

end Bfdev.Radix

/-
Model of `src/btree.c` (with `src/btree-utils.c` and `include/bfdev/btree.h`).

A node is a block of `2 * keynum` words: `keynum` keys, then `keynum` values (the layouts of btree-utils.c:10-37 all give, on the 64-bit
target, `keylen = 1`, `keynum = ptrindex = 8`, `nodesize = 128`). Here a block is the list of its `keynum` slots, each a key and a value; a
key index past the last key reads a value (`keyAt`), anything past the block is undefined. A value is a word, 0 being `NULL`; in the upper
levels it is the address of a node. The heap maps the addresses in use to blocks. The `k`-th call of the allocator answers `mem k` and, if it
has memory, gives the address `k + 1`, which was not in use before. Keys are passed by reference, as in the code (`Key`): the key given to
`insert_level` and `remove_level` can be a slot of a node, and is read again after that node has changed.

Simplifications. Keys are one word compared by `bfdev_btree_key_find` (btree-utils.c:39-54), largest first. `unsigned int` indices do not
wrap: the only place where one would (an index of -1) is undefined here. The height does not reach `2^32`. The functions `clash` and
`remove` of the user do not touch the tree. Undefined behaviour (an access outside a block, to a block not in use) and endless recursion are
`none`.
-/
namespace Bfdev.Btree

/-- `struct bfdev_btree_node`, btree.h:29-31. -/
abbrev Blk := List (Nat × Nat)

abbrev Heap := Nat → Option Blk

/-- `struct bfdev_btree_root`, btree.h:33-41, and the heap. -/
structure Root where
  heap : Heap
  node : Nat
  height : Nat
  calls : Nat

/-- The functions of the user, btree.h:43-49, that can be left out: `clash` and `remove`. -/
structure Ops where
  clash : Option (Nat → Nat → Int)
  remove : Option (Nat → Nat)

/-- `BFDEV_BTREE_STATIC`, btree.h:51-53. -/
def init : Root := ⟨fun _ => none, 0, 0, 0⟩

/-- A `uintptr_t *key`: a variable of the caller, or a slot of a node. -/
inductive Key where
  | mem (k : Nat)
  | slot (p i : Nat)

/-- Replace the block at an address. -/
def put (h : Heap) (p : Nat) (b : Option Blk) : Heap := fun a => if a = p then b else h a

/-- `bnode_get_key`, btree.c:36-47, and a read through it. -/
def keyAt (b : Blk) (i : Nat) : Option Nat := if i < b.length then b[i]?.map (·.1) else b[i - b.length]?.map (·.2)

/-- `bnode_get_value`, btree.c:10-21. -/
def valAt (b : Blk) (i : Nat) : Option Nat := b[i]?.map (·.2)

/-- `bnode_set_key`, btree.c:49-62. -/
def setKey (b : Blk) (i k : Nat) : Option Blk := b[i]?.map fun e => b.set i (k, e.2)

/-- `bnode_set_value`, btree.c:23-34. -/
def setVal (b : Blk) (i v : Nat) : Option Blk := b[i]?.map fun e => b.set i (e.1, v)

/-- `bnode_migrate`, btree.c:123-135; `bnode_clear_index`, btree.c:92-106, stores `(0, 0)`. -/
def store (b : Blk) (i : Nat) (e : Nat × Nat) : Option Blk := if i < b.length then some (b.set i e) else none

/-- A read through a key pointer. -/
def Key.read (h : Heap) : Key → Option Nat
  | .mem k => some k
  | .slot p i => (h p).bind fun b => keyAt b i

/-- `bnode_alloc`, btree.c:137-152: the address of a block of zeros, 0 if there is no memory. -/
def alloc (K : Nat) (mem : Nat → Bool) (r : Root) : Root × Nat :=
  if mem r.calls then ({ r with heap := put r.heap (r.calls + 1) (some (List.replicate K (0, 0))), calls := r.calls + 1 }, r.calls + 1)
  else ({ r with calls := r.calls + 1 }, 0)

/-- `bnode_free`, btree.c:154-162. -/
def free (r : Root) (p : Nat) : Option Root := (r.heap p).map fun _ => { r with heap := put r.heap p none }

/-- The loop of `bnode_fill_index`. -/
def filled : Blk → Nat
  | [] => 0
  | e :: b => if e.2 = 0 then 0 else filled b + 1

/-- `bnode_fill_index`, btree.c:164-178. -/
def fillIndex (b : Blk) (start : Nat) : Nat := start + filled (b.drop start)

/-- `bnode_find_index`, btree.c:225-239; the same loop is in `bnode_find_parent` and `bnode_lookup`. -/
def findIndex (k : Nat) : Blk → Nat
  | [] => 0
  | e :: b => if e.1 ≤ k then 0 else findIndex k b + 1

/-- The loop of `bnode_key_index`, btree.c:180-198; `none` is `layout->keynum`. -/
def keyIndex (k : Nat) : Blk → Option Nat
  | [] => none
  | e :: b => if e.1 < k then none else if e.1 = k then some 0 else (keyIndex k b).map (· + 1)

/-- One turn of the loop of `bnode_find_parent`, btree.c:210-220. -/
def stepDown (k : Nat) (h : Heap) (p : Nat) : Option (Heap × Nat) :=
  (h p).bind fun b =>
  let i := findIndex k b
  if i = b.length ∨ valAt b i = some 0 then
    if i = 0 then none
    else (setKey b (i - 1) k).bind fun b => (valAt b (i - 1)).map fun v => (put h p (some b), v)
  else (valAt b i).map fun v => (h, v)

/-- `n` turns of the loop of `bnode_find_parent`. -/
def descend (k : Nat) (h : Heap) (p : Nat) : Nat → Option (Heap × Nat)
  | 0 => some (h, p)
  | n + 1 => (descend k h p n).bind fun s => stepDown k s.1 s.2

/-- `bnode_find_parent`, btree.c:200-223. -/
def findParent (r : Root) (k level : Nat) : Option (Root × Nat) :=
  (descend k r.heap r.node (r.height - level)).map fun s => ({ r with heap := s.1 }, s.2)

/-- The loop of `bnode_lookup`, btree.c:255-267, `n` turns of it. -/
def lookupDown (k : Nat) (h : Heap) : Nat → Nat → Option Nat
  | 0, p => some p
  | n + 1, p =>
    (h p).bind fun b =>
    let i := findIndex k b
    if i = b.length then some 0
    else (valAt b i).bind fun v => if v = 0 then some 0 else lookupDown k h n v

/-- `bnode_lookup`, btree.c:241-270; 0 is `NULL`. -/
def lookupNode (r : Root) (k : Nat) : Option Nat := if r.height = 0 then some 0 else lookupDown k r.heap (r.height - 1) r.node

/-- `bfdev_btree_lookup`, btree.c:272-290; 0 is `NULL`. -/
def lookup (r : Root) (k : Nat) : Option Nat :=
  (lookupNode r k).bind fun p =>
  if p = 0 then some 0
  else (r.heap p).bind fun b =>
    match keyIndex k b with
    | none => some 0
    | some i => valAt b i

/-- `bfdev_btree_update`, btree.c:292-311. -/
def update (r : Root) (k v : Nat) : Option (Root × Int) :=
  (lookupNode r k).bind fun p =>
  if p = 0 then some (r, -2)
  else (r.heap p).bind fun b =>
    match keyIndex k b with
    | none => some (r, -2)
    | some i => (setVal b i v).map fun b => ({ r with heap := put r.heap p (some b) }, 0)

/-- `btree_extend`, btree.c:313-335; the flag says whether there was memory. -/
def extend (K : Nat) (mem : Nat → Bool) (r : Root) : Option (Root × Bool) :=
  match alloc K mem r with
  | (r', 0) => some (r', false)
  | (r', n + 1) =>
    if r.node = 0 then some ({ r' with node := n + 1, height := r.height + 1 }, true)
    else
      (r'.heap r.node).bind fun b =>
      if fillIndex b 0 = 0 then none
      else
        (keyAt b (fillIndex b 0 - 1)).bind fun k =>
        (store (List.replicate K (0, 0)) 0 (k, r.node)).map fun c =>
        ({ r' with heap := put r'.heap (n + 1) (some c), node := n + 1, height := r.height + 1 }, true)

/-- `btree_shrink`, btree.c:337-350. -/
def shrink (r : Root) : Option Root :=
  if r.height < 2 then some r
  else (r.heap r.node).bind fun b => (valAt b 0).bind fun v => free { r with height := r.height - 1, node := v } r.node

/-- The loop of btree.c:401-405, `n` turns from `count`: the new block and the old one. -/
def splitLoop (half : Nat) : Nat → Nat → Blk → Blk → Option (Blk × Blk)
  | 0, _, nb, b => some (nb, b)
  | n + 1, count, nb, b =>
    b[count]?.bind fun e => (store nb count e).bind fun nb =>
    b[count + half]?.bind fun e => (store b count e).bind fun b =>
    (store b (count + half) (0, 0)).bind fun b => splitLoop half n (count + 1) nb b

/-- The split, btree.c:400-410. -/
def split (fill : Nat) (nb b : Blk) : Option (Blk × Blk) :=
  (splitLoop (fill / 2) (fill / 2) 0 nb b).bind fun s =>
  if fill % 2 = 1 then
    s.2[fill - 1]?.bind fun e => (store s.1 (fill / 2) e).bind fun nb => (store s.2 (fill - 1) (0, 0)).map fun b => (nb, b)
  else some s

/-- The shift of btree.c:414-415: `n` turns from `count = index + n`. -/
def shiftUp (index : Nat) : Nat → Blk → Option Blk
  | 0, b => some b
  | n + 1, b => b[index + n]?.bind fun e => (store b (index + n + 1) e).bind fun b => shiftUp index n b

/-- `insert_level`, btree.c:352-421. The pass after a split starts at the head of the function again, where the test of the height fails. -/
def insertLevel (K : Nat) (mem : Nat → Bool) (ops : Ops) : Nat → Root → Nat → Key → Nat → Option (Root × Int)
  | 0, _, _, _, _ => none
  | fuel + 1, r, level, key, v =>
    (if r.height < level then extend K mem r else some (r, true)).bind fun (r, ok) =>
    if ¬ok then some (r, -12)
    else
    (key.read r.heap).bind fun k =>
    (findParent r k level).bind fun (r, p) =>
    (r.heap p).bind fun b =>
    let index := findIndex k b
    let fill := fillIndex b index
    if index < fill ∧ keyAt b index = some k then
      match ops.clash with
      | some f => (valAt b index).map fun old => (r, f old v)
      | none => some (r, -114)
    else if fill ≠ b.length then
      (shiftUp index (fill - index) b).bind fun b => (store b index (k, v)).map fun b => ({ r with heap := put r.heap p (some b) }, 0)
    else
      match alloc K mem r with
      | (r, 0) => some (r, -12)
      | (r, n + 1) =>
        (insertLevel K mem ops fuel r (level + 1) (.slot p (fill / 2 - 1)) (n + 1)).bind fun (r, ret) =>
        if ret ≠ 0 then (free r (n + 1)).map fun r => (r, ret)
        else
          (r.heap (n + 1)).bind fun nb => (r.heap p).bind fun b =>
          (split fill nb b).bind fun (nb, b) =>
          insertLevel K mem ops fuel { r with heap := put (put r.heap (n + 1) (some nb)) p (some b) } level key v

/-- `bfdev_btree_insert`, btree.c:538-545. -/
def insert (K : Nat) (mem : Nat → Bool) (ops : Ops) (r : Root) (k v : Nat) : Option (Root × Int) :=
  if v = 0 then some (r, -22) else insertLevel K mem ops (r.height + 3) r 1 (.mem k) v

/-- The loop of btree.c:434-435: append the first `n` slots of the right block to the left one, from `count`. -/
def mergeLoop (lfill : Nat) : Nat → Nat → Blk → Blk → Option Blk
  | 0, _, l, _ => some l
  | n + 1, count, l, r => r[count]?.bind fun e => (store l (lfill + count) e).bind fun l => mergeLoop lfill n (count + 1) l r

/-- `rebalance_merge`, btree.c:426-442; `rec` is `remove_level`. -/
def merge (rec : Root → Nat → Key → Option (Root × Nat)) (r : Root) (level l lfill rt rfill parent index : Nat) : Option Root :=
  (r.heap l).bind fun lb => (r.heap rt).bind fun rb =>
  (mergeLoop lfill rfill 0 lb rb).bind fun lb =>
  let h := put r.heap l (some lb)
  (h parent).bind fun pb => (setVal pb index rt).bind fun pb => (setVal pb (index + 1) l).bind fun pb =>
  (rec { r with heap := put h parent (some pb) } (level + 1) (.slot parent index)).bind fun s => free s.1 rt

/-- The sibling to the right, btree.c:474-484. -/
def rebalanceRight (rec : Root → Nat → Key → Option (Root × Nat)) (r : Root) (level child fill parent index : Nat) : Option Root :=
  (r.heap parent).bind fun pb =>
  if index + 1 < fillIndex pb index then
    (valAt pb (index + 1)).bind fun node => (r.heap node).bind fun nb =>
    if fill + fillIndex nb 0 ≤ nb.length then merge rec r level child fill node (fillIndex nb 0) parent index else some r
  else some r

/-- `remove_rebalance`, btree.c:444-485. -/
def rebalance (rec : Root → Nat → Key → Option (Root × Nat)) (r : Root) (level : Nat) (key : Key) (child fill : Nat) : Option Root :=
  if fill = 0 then (rec r (level + 1) key).bind fun s => free s.1 child
  else
    (key.read r.heap).bind fun k =>
    (findParent r k (level + 1)).bind fun (r, parent) =>
    (r.heap parent).bind fun pb =>
    let index := findIndex k pb
    if index ≠ 0 then
      (valAt pb (index - 1)).bind fun node => (r.heap node).bind fun nb =>
      if fill + fillIndex nb 0 ≤ nb.length then merge rec r level node (fillIndex nb 0) child fill parent (index - 1)
      else rebalanceRight rec r level child fill parent index
    else rebalanceRight rec r level child fill parent index

/-- The shift of btree.c:523-524: `n` turns from `count = index`. -/
def shiftDown : Nat → Nat → Blk → Option Blk
  | 0, _, b => some b
  | n + 1, count, b => b[count + 1]?.bind fun e => (store b count e).bind fun b => shiftDown n (count + 1) b

/-- btree.c:522-533: the slot is removed and the tree balanced again. An empty node would give `last = -1` and a shift past the block. -/
def removeSlot (rec : Root → Nat → Key → Option (Root × Nat)) (r : Root) (level : Nat) (key : Key) (p : Nat) (b : Blk) (index fill : Nat) :
    Option Root :=
  if fill = 0 then none else
  let last := fill - 1
  (shiftDown (last - index) index b).bind fun c => (store c (index + (last - index)) (0, 0)).bind fun c =>
  let r := { r with heap := put r.heap p (some c) }
  if last < b.length / 2 then
    if level < r.height then rebalance rec r level key p last else if last = 1 then shrink r else some r
  else some r

/-- `remove_level`, btree.c:487-536. -/
def removeLevel (ops : Ops) : Nat → Root → Nat → Key → Option (Root × Nat)
  | 0, _, _, _ => none
  | fuel + 1, r, level, key =>
    if level > r.height then some ({ r with height := 0, node := 0 }, 0)
    else
    (key.read r.heap).bind fun k =>
    (findParent r k level).bind fun (r, p) =>
    (r.heap p).bind fun b =>
    let index := findIndex k b
    let fill := fillIndex b index
    if level = 1 then
      (keyAt b index).bind fun x =>
      if x ≠ k then some (r, 0)
      else
        (valAt b index).bind fun value =>
        match ops.remove.map (· value) with
        | some (c + 1) => some (r, c + 1)
        | _ => (removeSlot (removeLevel ops fuel) r level key p b index fill).map fun r => (r, value)
    else (removeSlot (removeLevel ops fuel) r level key p b index fill).map fun r => (r, 0)

/-- `bfdev_btree_remove`, btree.c:547-554. -/
def remove (ops : Ops) (r : Root) (k : Nat) : Option (Root × Nat) :=
  if r.height = 0 then some (r, 0) else removeLevel ops (r.height + 1) r 1 (.mem k)

/-- The loop of `bfdev_btree_first`, btree.c:599-600, and of `bfdev_btree_next`, btree.c:652-655, `n` turns. -/
def leftmost (h : Heap) : Nat → Nat → Option Nat
  | 0, p => some p
  | n + 1, p => (h p).bind fun b => (valAt b 0).bind fun v => leftmost h n v

/-- A slot of a node: the key taken out and the value, btree.c:602-603. -/
def entry (h : Heap) (p i : Nat) : Option (Nat × Nat) := (h p).bind fun b => (keyAt b i).bind fun k => (valAt b i).map fun v => (k, v)

/-- `bfdev_btree_first`, btree.c:588-604: the value, and the key if it was stored. -/
def first (r : Root) : Option (Option (Nat × Nat)) :=
  if r.height = 0 then some none
  else (leftmost r.heap (r.height - 1) r.node).bind fun p => (entry r.heap p 0).map some

/-- The loop of `bfdev_btree_last`, btree.c:617-620, and of `bfdev_btree_prev`, btree.c:685-688, `n` turns. -/
def rightmost (h : Heap) : Nat → Nat → Option Nat
  | 0, p => some p
  | n + 1, p => (h p).bind fun b => if fillIndex b 0 = 0 then none else (valAt b (fillIndex b 0 - 1)).bind fun v => rightmost h n v

/-- `bfdev_btree_last`, btree.c:606-625. -/
def last (r : Root) : Option (Option (Nat × Nat)) :=
  if r.height = 0 then some none
  else
    (rightmost r.heap (r.height - 1) r.node).bind fun p => (r.heap p).bind fun b =>
    if fillIndex b 0 = 0 then none else (entry r.heap p (fillIndex b 0 - 1)).map some

/-- The loop of `bfdev_btree_next`, btree.c:641-647, with `n` turns left: the node, the index and the depth. -/
def nextLoop (k : Nat) : Nat → Nat → Root → Option (Root × Option (Nat × Nat × Nat))
  | 0, _, r => some (r, none)
  | n + 1, depth, r =>
    (findParent r k depth).bind fun (r, p) => (r.heap p).bind fun b =>
    let index := findIndex k b
    if index + 1 < fillIndex b index then some (r, some (p, index + 1, depth)) else nextLoop k n (depth + 1) r

/-- `bfdev_btree_next`, btree.c:627-659. -/
def next (r : Root) (k : Nat) : Option (Root × Option (Nat × Nat)) :=
  if r.height = 0 then some (r, none)
  else if k = 0 then some (r, none)
  else
    (nextLoop k r.height 1 r).bind fun s =>
    match s with
    | (r, none) => some (r, none)
    | (r, some (p, index, depth)) =>
      if depth = 1 then (entry r.heap p index).map fun e => (r, some e)
      else
        (r.heap p).bind fun b => (valAt b index).bind fun q => (leftmost r.heap (depth - 2) q).bind fun q =>
        (entry r.heap q 0).map fun e => (r, some e)

/-- The loop of `bfdev_btree_prev`, btree.c:675-680. -/
def prevLoop (k : Nat) : Nat → Nat → Root → Option (Root × Option (Nat × Nat × Nat))
  | 0, _, r => some (r, none)
  | n + 1, depth, r =>
    (findParent r k depth).bind fun (r, p) => (r.heap p).bind fun b =>
    let index := findIndex k b
    if index ≠ 0 then some (r, some (p, index - 1, depth)) else prevLoop k n (depth + 1) r

/-- `bfdev_btree_prev`, btree.c:661-692. -/
def prev (r : Root) (k : Nat) : Option (Root × Option (Nat × Nat)) :=
  if r.height = 0 then some (r, none)
  else if k = 0 then some (r, none)
  else
    (prevLoop k r.height 1 r).bind fun s =>
    match s with
    | (r, none) => some (r, none)
    | (r, some (p, index, depth)) =>
      if depth = 1 then (entry r.heap p index).map fun e => (r, some e)
      else
        (r.heap p).bind fun b => (valAt b index).bind fun q => (rightmost r.heap (depth - 2) q).bind fun q =>
        (r.heap q).bind fun b => if fillIndex b 0 = 0 then none else (entry r.heap q (fillIndex b 0 - 1)).map fun e => (r, some e)

/-- `bfdev_btree_next` on a cursor: the key stays if there is no next element, and the value is then `NULL`. -/
def nextCursor (r : Root) (k : Nat) : Option (Root × Nat × Nat) :=
  (next r k).map fun s =>
  match s with
  | (r, none) => (r, k, 0)
  | (r, some (k', v)) => (r, k', v)

/-- The loop of `bfdev_btree_release`, btree.c:568-572 (`bfdev_btree_for_each_safe`, btree.h:183-188), with `key`, `value`, `tkey`, `tval`;
the list collects the values given to `release`. -/
def releaseLoop (ops : Ops) : Nat → Root → Nat → Nat → Nat → Nat → List Nat → Option (Root × List Nat)
  | 0, _, _, _, _, _, _ => none
  | fuel + 1, r, k, v, tk, tv, out =>
    if v = 0 then some (r, out)
    else
      (remove ops r k).bind fun s => (nextCursor s.1 tk).bind fun (r, tk', tv') => releaseLoop ops fuel r tk tv tk' tv' (out ++ [v])

/-- `bfdev_btree_release`, btree.c:556-577. `n` bounds the number of turns. -/
def release (ops : Ops) (n : Nat) (r : Root) : Option (Root × List Nat) :=
  ((first r).bind fun cur =>
    match cur with
    | none => some (r, [])
    | some (k, v) => if v = 0 then some (r, []) else (nextCursor r k).bind fun (r, tk, tv) => releaseLoop ops n r k v tk tv []).bind fun (r, out) =>
  if r.node = 0 then some ({ r with node := 0, height := 0 }, out)
  else (free r r.node).map fun r => ({ r with node := 0, height := 0 }, out)

end Bfdev.Btree

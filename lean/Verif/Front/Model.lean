/-!
Model of `src/allocator.c` and of the array forms in `include/bfdev/allocator.h`: which heap a request goes to. A heap is that of the C library, or that of the
user's operations with the private pointer they are handed; both are taken to work: they refuse requests when they like, hand out unused addresses, and
resizing keeps the beginning of the contents, in place or not. Giving a heap a block that is not one of its own is the outcome `none`.
-/
namespace Bfdev.Front

abbrev Byte := BitVec 8

/-- `bfdev_alloc_ops_t`, allocator.h: which of the operations are given. -/
structure Table where
  alloc : Bool
  zalloc : Bool
  realloc : Bool
  free : Bool
deriving DecidableEq, Repr

/-- `bfdev_alloc_t`, allocator.h. -/
structure Alloc where
  ops : Option Table
  pdata : Nat
deriving DecidableEq, Repr

/-- The variables `bfdev_alloc_default` and `bfdev_alloc_default_ops`, which users can set. -/
structure Env where
  alloc : Alloc
  ops : Table

/-- Their initial values, allocator.c:10-18. -/
def env0 : Env := ⟨⟨none, 0⟩, ⟨false, false, false, false⟩⟩

/-- A block of a heap: `none` is the C library, `some pdata` the user's. -/
structure Block where
  owner : Option Nat
  addr : Nat
  data : List Byte
deriving DecidableEq, Repr

/-- The live blocks, and what the heaps will do: refuse request number `n`, fill new bytes with something, resize in place. -/
structure World where
  live : List Block
  next : Nat
  fail : Nat → Bool
  junk : Nat → List Byte
  stay : Nat → Bool
  calls : Nat

/-- A heap's answer to a request for `size` bytes, cleared or not. -/
def heapAlloc (w : World) (owner : Option Nat) (size : Nat) (zero : Bool) : World × Nat :=
  if w.fail w.calls then ({ w with calls := w.calls + 1 }, 0)
  else
    let data := if zero then List.replicate size 0 else (w.junk w.calls ++ List.replicate size 0).take size
    ({ w with live := ⟨owner, w.next, data⟩ :: w.live, next := w.next + 1, calls := w.calls + 1 }, w.next)

/-- Whether the heap has such a block. -/
def has (owner : Option Nat) (addr : Nat) (b : Block) : Bool := b.owner == owner && b.addr == addr

/-- A heap's answer to a request to resize a block. -/
def heapRealloc (w : World) (owner : Option Nat) (addr size : Nat) : Option (World × Nat) :=
  match w.live.find? (has owner addr) with
  | none => none
  | some b =>
    if w.fail w.calls then some ({ w with calls := w.calls + 1 }, 0)
    else
      let data := (b.data ++ w.junk w.calls ++ List.replicate size 0).take size
      let place := if w.stay w.calls then addr else w.next
      some ({ w with live := ⟨owner, place, data⟩ :: w.live.filter (fun b => !has owner addr b), next := w.next + 1, calls := w.calls + 1 }, place)

/-- A block given back. -/
def heapFree (w : World) (owner : Option Nat) (addr : Nat) : Option World :=
  if w.live.any (has owner addr) then some { w with live := w.live.filter fun b => !has owner addr b } else none

/-- `alloc_ops`, allocator.c:23-39: the operations and the private pointer. -/
def allocOps (env : Env) (alloc : Option Alloc) : Table × Nat :=
  let alloc := match alloc with
    | none => env.alloc
    | some a => a
  let pdata := alloc.pdata
  match alloc.ops with
  | some ops => (ops, pdata)
  | none => (env.ops, pdata)

/-- The heap an operation works on: `generic_alloc` and so on, port/allocator.h:16-38, or the operation given. -/
def heapOf (given : Bool) (pdata : Nat) : Option Nat := if !given then none else some pdata

/-- `bfdev_malloc`, allocator.c:41-56. -/
def malloc (env : Env) (alloc : Option Alloc) (size : Nat) (w : World) : World × Nat :=
  if size = 0 then (w, 0)
  else
    let (ops, pdata) := allocOps env alloc
    heapAlloc w (heapOf ops.alloc pdata) size false

/-- `bfdev_zalloc`, allocator.c:58-73. -/
def zalloc (env : Env) (alloc : Option Alloc) (size : Nat) (w : World) : World × Nat :=
  if size = 0 then (w, 0)
  else
    let (ops, pdata) := allocOps env alloc
    heapAlloc w (heapOf ops.zalloc pdata) size true

/-- `bfdev_free`, allocator.c:99-115. -/
def free (env : Env) (alloc : Option Alloc) (block : Nat) (w : World) : Option World :=
  if block = 0 then some w
  else
    let (ops, pdata) := allocOps env alloc
    heapFree w (heapOf ops.free pdata) block

/-- `bfdev_realloc`, allocator.c:75-97. -/
def realloc (env : Env) (alloc : Option Alloc) (block resize : Nat) (w : World) : Option (World × Nat) :=
  if block = 0 then some (malloc env alloc resize w)
  else if resize = 0 then do
    let w ← free env alloc block w
    return (w, 0)
  else
    let (ops, pdata) := allocOps env alloc
    heapRealloc w (heapOf ops.realloc pdata) block resize

/-- `bfdev_malloc_array`, allocator.h:95-100: the product is a `size_t`. -/
def mallocArray (env : Env) (alloc : Option Alloc) (nr size : Nat) (w : World) : World × Nat := malloc env alloc (size * nr % 2 ^ 64) w

/-- `bfdev_zalloc_array`, allocator.h:107-112. -/
def zallocArray (env : Env) (alloc : Option Alloc) (nr size : Nat) (w : World) : World × Nat := zalloc env alloc (size * nr % 2 ^ 64) w

/-- `bfdev_realloc_array`, allocator.h:120-125. -/
def reallocArray (env : Env) (alloc : Option Alloc) (block nr size : Nat) (w : World) : Option (World × Nat) :=
  realloc env alloc block (size * nr % 2 ^ 64) w

/-- The calls of a client that uses allocators by number. -/
inductive Call where
  | malloc (al size : Nat)
  | zalloc (al size : Nat)
  | realloc (al block size : Nat)
  | free (al block : Nat)
  | mallocArray (al nr size : Nat)
  | zallocArray (al nr size : Nat)
  | reallocArray (al block nr size : Nat)
deriving DecidableEq

def exec (env : Env) (als : Nat → Option Alloc) (w : World) : Call → Option (World × Nat)
  | .malloc al size => some (malloc env (als al) size w)
  | .zalloc al size => some (zalloc env (als al) size w)
  | .realloc al block size => realloc env (als al) block size w
  | .free al block => do return (← free env (als al) block w, 0)
  | .mallocArray al nr size => some (mallocArray env (als al) nr size w)
  | .zallocArray al nr size => some (zallocArray env (als al) nr size w)
  | .reallocArray al block nr size => reallocArray env (als al) block nr size w

end Bfdev.Front

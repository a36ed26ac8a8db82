import Verif.Scan.Model
/-!
Model of the memory behind caches, text searches, queues, ring buffers, bitmaps and Bloom filters: `src/allocator.c` on a world of live blocks, the creating and
destroying functions of `src/cache`, `src/textsearch`, `src/fifo.c`, `src/ringbuf.c` and `src/bitmap.c`. A block is known by its address, the allocator
it came from and its size; contents are only modelled where pointers to further blocks are kept in them. Giving a block to an allocator it did not
come from, or twice, is the outcome `none`, and so is undefined arithmetic.
-/
namespace Bfdev.Life
open Scan (Word)

structure Block where
  alloc : Nat
  addr : Nat
  size : Nat
deriving DecidableEq, Repr

/-- The live blocks; new blocks get the address `next`; the allocators refuse the requests `fail` says, counted by `calls`. -/
structure World where
  live : List Block
  next : Nat
  fail : Nat → Bool
  calls : Nat

/-- `bfdev_malloc` and `bfdev_zalloc`, allocator.c:38-74, with an allocator whose operations do what `World` says. A request for nothing is refused
without asking. -/
def malloc (w : World) (alloc : Nat) (size : Nat) : World × Nat :=
  if size = 0 then (w, 0)
  else if w.fail w.calls then ({ w with calls := w.calls + 1 }, 0)
  else ({ w with live := ⟨alloc, w.next, size⟩ :: w.live, next := w.next + 1, calls := w.calls + 1 }, w.next)

/-- `bfdev_malloc_array` and `bfdev_zalloc_array`, allocator.h:95-113: the product is a `size_t`. -/
def mallocArray (w : World) (alloc : Nat) (nr size : Nat) : World × Nat := malloc w alloc (size * nr % 2 ^ 64)

/-- `bfdev_free`, allocator.c:100-115. -/
def free (w : World) (alloc addr : Nat) : Option World :=
  if addr = 0 then some w
  else if w.live.any (fun b => b.alloc == alloc && b.addr == addr) then some { w with live := w.live.filter fun b => !(b.alloc == alloc && b.addr == addr) }
  else none

/-! ## Queues and ring buffers -/

/-- `bfdev_fifo_t` and `bfdev_ringbuf_t`, fifo.h:18-25, ringbuf.h:18-25. -/
structure Queue where
  alloc : Nat
  inn : Nat
  out : Nat
  mask : Nat
  esize : Nat
  data : Nat
deriving DecidableEq, Repr

/-- `bfdev_fifo_dynamic_alloc`, fifo.c:200-219, and `bfdev_ringbuf_dynamic_alloc`, ringbuf.c:225-244. -/
def queueAlloc (w : World) (q : Queue) (alloc : Nat) (esize size : Nat) : Option (World × Queue × Int) := do
  let size := (← Scan.pow2Roundup (BitVec.ofNat 64 size)).toNat
  if size < 2 then return (w, q, -22)
  let (w, data) := mallocArray w alloc size esize
  let q := { q with data := data }
  if data = 0 then return (w, q, -12)
  return (w, ⟨alloc, 0, 0, size - 1, esize, data⟩, 0)

/-- `bfdev_fifo_dynamic_free`, fifo.c:221-234, and `bfdev_ringbuf_dynamic_free`, ringbuf.c:246-259. -/
def queueFree (w : World) (q : Queue) : Option (World × Queue) := do
  let q := { q with inn := 0, out := 0, mask := 0, esize := 0 }
  let w ← free w q.alloc q.data
  return (w, { q with data := 0 })

/-! ## Bitmaps -/

/-- `BFDEV_BITS_TO_LONG` of an `unsigned int`, bits.h, math.h: the sum is an `unsigned int`. -/
def bitsToLong (bits : Nat) : Nat := (bits + 63) % 2 ^ 32 / 64

/-- `bfdev_bitmap_alloc` and `bfdev_bitmap_zalloc`, bitmap.c:343-357. -/
def bitmapAlloc (w : World) (alloc : Nat) (bits : Nat) : World × Nat := mallocArray w alloc (bitsToLong bits) 8

/-- `bfdev_bitmap_free`, bitmap.c:359-363. -/
def bitmapFree (w : World) (alloc bitmap : Nat) : Option World := free w alloc bitmap

/-! ## Bloom filters -/

/-- `bfdev_bloom_t`, bloom.h: its block, allocator and capacity. -/
structure BloomObj where
  alloc : Nat
  bloom : Nat
  capacity : Nat
deriving DecidableEq, Repr

/-- `bfdev_bloom_create`, bloom.c:65-85: the capacity is rounded up to whole words as an `unsigned int`; `hdr` is the size of the structure. -/
def bloomCreate (hdr : Nat) (w : World) (alloc capacity : Nat) : World × Option BloomObj :=
  let capacity := (capacity + 63) % 2 ^ 32 / 64 * 64
  let (w, bloom) := malloc w alloc (hdr + 8 * (capacity / 64))
  if bloom = 0 then (w, none) else (w, some ⟨alloc, bloom, capacity⟩)

/-- `bfdev_bloom_destroy`, bloom.c:87-94. -/
def bloomDestroy (w : World) (b : BloomObj) : Option World := free w b.alloc b.bloom

/-! ## Text searches -/

/-- The pointers of a search: its block, allocator, the place of the pattern in the block and its length. -/
structure Search where
  alloc : Nat
  tsc : Nat
  pattern : Nat
  patternLen : Nat
deriving DecidableEq, Repr

inductive Algo where
  | bm | kmp | sunday
deriving DecidableEq, Repr

/-- Where the pattern lies in the block: behind a table of `unsigned int`s whose size is itself kept in an `unsigned int` (bm.c:133-142,
kmp.c:98-107), or behind the structure (sunday.c:103). `hdr` is the size of the structure. -/
def Algo.pattern (hdr : Algo → Nat) (len : Nat) : Algo → Nat
  | .bm => hdr .bm + 4 * len % 2 ^ 32
  | .kmp => hdr .kmp + 4 * len % 2 ^ 32
  | .sunday => hdr .sunday

/-- `bm_prepare`, bm.c:128-151, `kmp_prepare`, kmp.c:93-116, `sunday_prepare`, sunday.c:96-116, followed by `bfdev_textsearch_create`,
textsearch.c:39-58. The tables are computed by the models of C53 and C54. -/
def searchCreate (hdr : Algo → Nat) (w : World) (alloc : Nat) (algo : Algo) (len : Nat) : World × Option Search :=
  let pattern := algo.pattern hdr len
  let (w, tsc) := malloc w alloc ((pattern + len) % 2 ^ 64)
  if tsc = 0 then (w, none) else (w, some ⟨alloc, tsc, pattern, len % 2 ^ 32⟩)

/-- `bfdev_textsearch_destroy`, textsearch.h:213-221, with `bm_destroy`, bm.c:153-160, `kmp_destroy`, kmp.c:118-125, and `sunday_destroy`,
sunday.c:119-126. -/
def searchDestroy (w : World) (s : Search) : Option World := free w s.alloc s.tsc

/-! ## Caches -/

/-- `bfdev_cache_head_t`, cache.h: its block (the first member of that of the algorithm), the array of nodes, the nodes in it, the hash heads,
allocator and size. -/
structure Cache where
  head : Nat
  nodes : Nat
  elems : List Nat
  taghash : Nat
  alloc : Nat
  size : Nat
deriving DecidableEq, Repr

/-- The loop of `lru_create`, lru.c:99-105, and `lfu_create`, lfu.c:146-152, with `left` nodes to go; the flag is false for a jump to
`free_element`. -/
def createNodes (nodeSize : Nat) (alloc : Nat) : Nat → World → List Nat → World × List Nat × Bool
  | 0, w, elems => (w, elems, true)
  | left + 1, w, elems =>
    let (w, node) := malloc w alloc nodeSize
    if node = 0 then (w, elems, false) else createNodes nodeSize alloc left w (elems ++ [node])

/-- `while (count--)`, lru.c:110-113, lfu.c:157-160. -/
def freeNodesBack (alloc : Nat) (elems : List Nat) : Nat → World → Option World
  | 0, w => some w
  | count + 1, w => do
    let node ← elems[count]?
    freeNodesBack alloc elems count (← free w alloc node)

/-- `lru_create`, lru.c:80-119, and `lfu_create`, lfu.c:127-166, for the structure sizes of the algorithm. -/
def algoCreate (headSize nodeSize : Nat) (w : World) (alloc : Nat) (size : Nat) : Option (World × Option Cache) := do
  let (w, head) := malloc w alloc headSize
  if head = 0 then return (w, none)
  let (w, nodes) := mallocArray w alloc size 8
  if nodes = 0 then
    let w ← free w alloc head
    return (w, none)
  let (w, elems, ok) := createNodes nodeSize alloc size w []
  if ok then return (w, some ⟨head, nodes, elems, 0, 0, 0⟩)
  let w ← freeNodesBack alloc elems elems.length w
  let w ← free w alloc nodes
  let w ← free w alloc head
  return (w, none)

/-- The loop of `lru_destroy`, lru.c:130-133, and `lfu_destroy`, lfu.c:177-180: `left` nodes from number `count`. -/
def freeNodes (alloc : Nat) (elems : List Nat) : Nat → Nat → World → Option World
  | 0, _, w => some w
  | left + 1, count, w => do
    let node ← elems[count]?
    freeNodes alloc elems left (count + 1) (← free w alloc node)

/-- `lru_destroy`, lru.c:121-137, and `lfu_destroy`, lfu.c:168-184. -/
def algoDestroy (w : World) (c : Cache) : Option World := do
  let w ← freeNodes c.alloc c.elems c.size 0 w
  let w ← free w c.alloc c.nodes
  free w c.alloc c.head

/-- `bfdev_cache_create`, cache.c:303-354; `ops` says whether both callbacks are given and `found` whether the algorithm is registered. Linking the nodes
into the lists is the initial state of C32. -/
def cacheCreate (headSize nodeSize : Nat) (ops found : Bool) (w : World) (alloc : Nat) (size : Nat) : Option (World × Option Cache) := do
  if !ops then return (w, none)
  let size := (← Scan.pow2Roundup (BitVec.ofNat 64 size)).toNat
  if size < 2 then return (w, none)
  if !found then return (w, none)
  let (w, head) ← algoCreate headSize nodeSize w alloc size
  match head with
  | none => return (w, none)
  | some head =>
    let head := { head with alloc := alloc, size := size }
    let (w, taghash) := mallocArray w alloc size 8
    let head := { head with taghash := taghash }
    if taghash = 0 then
      let w ← algoDestroy w head
      return (w, none)
    return (w, some head)

/-- `bfdev_cache_destroy`, cache.c:356-367. -/
def cacheDestroy (w : World) (c : Cache) : Option World := do
  let w ← free w c.alloc c.taghash
  algoDestroy w c

end Bfdev.Life

/-!
Model of `src/memalloc.c` and `include/bfdev/memalloc.h`: the pool allocator. Chunks are named by the address of their header of 40 bytes,
which is followed by the data. The two intrusive lists are lists of chunks (their pointer implementation is modelled in `Dlist`); `usize`
gives the size word of the header at an address. `mem` is the contents of memory, where `none` stands for a byte the allocator has
written for its own purposes: linking and unlinking writes headers of chunks in the list concerned, and the model lets it write all of
them. Unlinking a chunk from a list it is not in, and copying between overlapping blocks, are the outcome `none`. Sizes are 64-bit. The
check of `BFDEV_DEBUG_MEMALLOC`, on in the default configuration, is left out here and added in `Verif/Memalloc/Debug.lean` (C91).
-/
namespace Bfdev.Memalloc

/-- 2^64. -/
abbrev W : Nat := 2 ^ 64

/-- `sizeof(bfdev_memalloc_chunk_t)`, memalloc.h:33-38. -/
scoped notation "hdr" => (40 : Nat)

/-- `pnode_get_used`, memalloc.c:15-19. -/
def used (u : Nat) : Bool := u % 2 == 1

/-- `pnode_get_size`, memalloc.c:21-25. -/
def size (u : Nat) : Nat := u / 2 * 2

/-- `pnode_set`, memalloc.c:41-45. -/
def word (n : Nat) (b : Bool) : Nat := n / 2 * 2 + b.toNat

/-- `bfdev_memalloc_head_t`, memalloc.h:24-29, with the headers and the contents of memory. The search function is a parameter of the
functions that use it. -/
structure Pool where
  block : List Nat
  free : List Nat
  avail : Nat
  usize : Nat → Nat
  mem : Nat → Option (BitVec 8)

/-- The allocator writes headers of the chunks `l`. -/
def Pool.touch (s : Pool) (l : List Nat) : Pool :=
  { s with mem := fun x => if l.any (fun a => a ≤ x && x < a + hdr) then none else s.mem x }

/-- Overwrite the size word of a chunk. -/
def Pool.put (s : Pool) (a v : Nat) : Pool := { s.touch [a] with usize := fun x => if x = a then v else s.usize x }

/-- `pnode_set_used`, memalloc.c:27-32. -/
def Pool.setUsed (s : Pool) (a : Nat) (b : Bool) : Pool := s.put a (word (size (s.usize a)) b)

/-- `pnode_set_size`, memalloc.c:34-39. -/
def Pool.setSize (s : Pool) (a n : Nat) : Pool := s.put a (word n (used (s.usize a)))

/-- `bfdev_list_add(&head->free_list, &node->free)`. -/
def Pool.pushFree (s : Pool) (a : Nat) : Pool := { s.touch (a :: s.free) with free := a :: s.free }

/-- `bfdev_list_del(&node->free)`. -/
def Pool.delFree (s : Pool) (a : Nat) : Option Pool :=
  if a ∈ s.free then some { s.touch s.free with free := s.free.erase a } else none

/-- A list with `n` inserted behind `a`. -/
def after (a n : Nat) : List Nat → List Nat
  | [] => []
  | x :: l => if x = a then x :: n :: l else x :: after a n l

/-- `bfdev_list_add(&node->block, &free->block)`. -/
def Pool.addBlock (s : Pool) (a n : Nat) : Option Pool :=
  if a ∈ s.block then some { s.touch (n :: s.block) with block := after a n s.block } else none

/-- `bfdev_list_del(&node->block)`. -/
def Pool.delBlock (s : Pool) (a : Nat) : Option Pool :=
  if a ∈ s.block then some { s.touch s.block with block := s.block.erase a } else none

/-- `bfdev_list_next_entry_or_null`, list.h:417-421. -/
def next (a : Nat) : List Nat → Option Nat
  | [] => none
  | x :: l => if x = a then l.head? else next a l

/-- `bfdev_list_prev_entry_or_null`, list.h:429-433. -/
def prev (a : Nat) : List Nat → Option Nat
  | [] => none
  | [_] => none
  | x :: y :: l => if y = a then some x else prev a (y :: l)

/-- A search function: the pool, the size, the chunk found. -/
abbrev Find := Pool → Nat → Option Nat

/-- `bfdev_memalloc_first_fit`, memalloc.c:65-76. -/
def firstFit : Find := fun s n => s.free.find? fun a => n ≤ size (s.usize a)

/-- The loop of `bfdev_memalloc_best_fit`, memalloc.c:87-99. -/
def bestLoop (u : Nat → Nat) (n : Nat) : List Nat → Option Nat → Nat → Option Nat
  | [], best, _ => best
  | a :: l, best, bsize =>
    if size (u a) ≥ n then
      if size (u a) = n then some a
      else if size (u a) ≥ bsize then bestLoop u n l best bsize
      else bestLoop u n l (some a) (size (u a))
    else bestLoop u n l best bsize

/-- `bfdev_memalloc_best_fit`, memalloc.c:78-100. -/
def bestFit : Find := fun s n => bestLoop s.usize n s.free none (W - 1)

/-- The loop of `bfdev_memalloc_worst_fit`, memalloc.c:111-123. -/
def worstLoop (u : Nat → Nat) (avail n : Nat) : List Nat → Option Nat → Nat → Option Nat
  | [], worst, _ => worst
  | a :: l, worst, bsize =>
    if size (u a) ≥ n then
      if size (u a) = avail then some a
      else if size (u a) ≤ bsize then worstLoop u avail n l worst bsize
      else worstLoop u avail n l (some a) (size (u a))
    else worstLoop u avail n l worst bsize

/-- `bfdev_memalloc_worst_fit`, memalloc.c:102-124. -/
def worstFit : Find := fun s n => worstLoop s.usize s.avail n s.free none 0

/-- `bfdev_align_high(size, BFDEV_MEMALLOC_ALIGN)`, align.h:49-52. -/
def align (n : Nat) : Nat := (n + 31) % W / 32 * 32

/-- A difference of `size_t`. -/
def sub (a b : Nat) : Nat := (a + W - b) % W

/-- The new free chunk behind a chunk: memalloc.c:153-157 and 222-226. -/
def Pool.split (s : Pool) (a f fsize : Nat) : Option Pool :=
  (({ s.put f (word fsize false) with avail := (s.avail + fsize) % W }).addBlock a f).map fun s : Pool => s.pushFree f

/-- The end of `bfdev_memalloc_alloc`, memalloc.c:160-164. -/
def Pool.grant (s : Pool) (a : Nat) : Option (Pool × Nat) :=
  ((s.setUsed a true).delFree a).map fun s => (s, a + hdr)

/-- `bfdev_memalloc_alloc`, memalloc.c:126-165; address 0 is NULL. -/
def alloc (find : Find) (s : Pool) (n : Nat) : Option (Pool × Nat) :=
  let n := align n
  if n > s.avail then some (s, 0)
  else match find s n with
    | none => some (s, 0)
    | some a =>
      let nsize := size (s.usize a)
      let s := { s with avail := sub s.avail nsize }
      let bsize := sub nsize n
      if bsize < hdr + 32 then s.grant a
      else (s.split a (a + hdr + n) (bsize - hdr)).bind fun s => (s.setSize a n).grant a

/-- Chunk `a` swallows the next one `b`: memalloc.c:254-260 and 266-272. -/
def join (s : Pool) (a b : Nat) : Option Pool :=
  (s.delFree b).bind fun s => (s.delBlock b).map fun s =>
    { s.setSize a ((size (s.usize a) + (hdr + size (s.usize b))) % W) with avail := (s.avail + hdr) % W }

/-- Merging with the next chunk, memalloc.c:251-261. -/
def mergeNext (s : Pool) (a : Nat) : Option Pool :=
  match next a s.block with
  | none => some s
  | some b => if used (s.usize b) then some s else join s a b

/-- Merging with the previous chunk, memalloc.c:263-273. -/
def mergePrev (s : Pool) (a : Nat) : Option Pool :=
  match prev a s.block with
  | none => some s
  | some b => if used (s.usize b) then some s else join s b a

/-- `bfdev_memalloc_free`, memalloc.c:233-274. -/
def free (s : Pool) (p : Nat) : Option Pool :=
  let a := p - hdr
  let s := (s.setUsed a false).pushFree a
  let s := { s with avail := (s.avail + size (s.usize a)) % W }
  (mergeNext s a).bind fun s => mergePrev s a

/-- `bfport_memcpy`. -/
def Pool.copy (s : Pool) (dst src n : Nat) : Option Pool :=
  if dst + n ≤ src ∨ src + n ≤ dst then
    some { s with mem := fun x => if dst ≤ x ∧ x < dst + n then s.mem (x - dst + src) else s.mem x }
  else none

/-- Moving a block, memalloc.c:191-200. -/
def move (find : Find) (s : Pool) (p origin n : Nat) : Option (Pool × Nat) :=
  (alloc find s n).bind fun r =>
    if r.2 = 0 then some (r.1, 0)
    else (r.1.copy r.2 p origin).bind fun s => (free s p).map fun s => (s, r.2)

/-- Expanding a block into the next chunk `b`, memalloc.c:203-230; `n` is the new size. -/
def expand (s : Pool) (p b origin n : Nat) : Option (Pool × Nat) :=
  let a := p - hdr
  let exsize := sub n origin
  let nsize := size (s.usize b)
  let s := { s with avail := sub s.avail nsize }
  (s.delFree b).bind fun s => (s.delBlock b).bind fun s =>
    let bsize := sub (hdr + nsize) exsize
    if bsize < hdr + 32 then some (s.setSize a ((origin + (hdr + nsize)) % W), p)
    else (s.split a (b + exsize) (bsize - hdr)).map fun s => (s.setSize a n, p)

/-- `bfdev_memalloc_realloc`, memalloc.c:167-231. -/
def realloc (find : Find) (s : Pool) (p n : Nat) : Option (Pool × Nat) :=
  let n := align n
  if n > s.avail then some (s, 0)
  else
    let origin := size (s.usize (p - hdr))
    if origin ≥ n then some (s, p)
    else match next (p - hdr) s.block with
      | none => move find s p origin n
      | some b =>
        if used (s.usize b) = true ∨ hdr + size (s.usize b) < sub n origin then move find s p origin n
        else expand s p b origin n

/-- `bfdev_memalloc_init`, memalloc.c:276-292. -/
def init (mem : Nat → Option (BitVec 8)) (base total : Nat) : Pool :=
  let s : Pool := ⟨[base], [base], sub total hdr, fun x => if x = base then word (sub total hdr) false else 0, mem⟩
  s.touch [base]

end Bfdev.Memalloc

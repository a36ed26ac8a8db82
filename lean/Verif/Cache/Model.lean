import Verif.Hashmap.Model
import Verif.Heap.Model
import Verif.Scan.Model
/-!
Model of `src/cache/cache.c`, `src/cache/lru.c`, `src/cache/lfu.c` and `include/bfdev/cache.h`. Node `n` is the `n`-th of the node array,
counted from 1; 0 is NULL. The doubly linked lists and the hash chains are lists of nodes (their pointer implementations are modelled in
`Dlist` and `Hlist`); the heap of the least-frequently-used policy is the pointer heap of `Heap`. Tags and user data are values, 0 for NULL.
Unlinking a node from a policy that does not hold it, taking a victim from an empty policy, and undefined shifts are the outcome `none`.
Counters are 64-bit. Registration of policies, allocation failures in `create` and `destroy` are not modelled.
-/
namespace Bfdev.Cache

/-- 2^64. -/
abbrev W : Nat := 2 ^ 64

/-- `enum bfdev_cache_status`, cache.h:44-49. -/
inductive Status where
  | freed | pending | busy | managed
deriving DecidableEq, Repr

/-- `f` with the field of node `n` overwritten. -/
def upd {α : Type} (f : Nat → α) (n : Nat) (v : α) : Nat → α := fun x => if x = n then v else f x

/-- `struct bfdev_cache_algo`, cache.h:91-105; a missing `update` or `clear` does nothing. -/
structure Algo (σ : Type) where
  starving : σ → Bool
  obtain : σ → Option (Nat × σ)
  get : σ → Nat → Option σ
  put : σ → Nat → Option σ
  update : σ → Nat → σ
  clear : σ → Nat → σ
  reset : σ → Nat → σ

/-- `struct bfdev_cache_ops`, cache.h:107-110: `find` compares user data with a tag. -/
structure Ops where
  hash : Nat → BitVec 64
  find : Nat → Nat → Int

/-- `struct bfdev_cache_head`, cache.h:62-89, with the node fields, cache.h:51-60, and the state of the policy. -/
structure Cache (σ : Type) where
  size : Nat
  maxpend : Nat
  inUse : List Nat
  freed : List Nat
  changing : List Nat
  bucket : Nat → List Nat
  status : Nat → Status
  refcnt : Nat → Nat
  tag : Nat → Nat
  data : Nat → Nat
  dirty : Bool
  starving : Bool
  used : Nat
  pending : Nat
  changed : Nat
  starve : Nat
  hits : Nat
  misses : Nat
  algo : σ

variable {σ : Type}

/-- `bfdev_list_del` of the list node: it is in one of three lists, or in none (self-linked). -/
def unlink (c : Cache σ) (n : Nat) : Cache σ :=
  { c with inUse := c.inUse.erase n, freed := c.freed.erase n, changing := c.changing.erase n }

/-- `cache_lookup`, cache.c:72-92. -/
def lookup (ops : Ops) (c : Cache σ) (tag : Nat) (change : Bool) : Option Nat :=
  (Bloom.hashtblIndex (BitVec.ofNat 64 c.size) (ops.hash tag)).bind fun index =>
    (Hashmap.mask c.size).map fun mask =>
      match (c.bucket (index &&& mask)).find? (fun n => ops.find (c.data n) tag == 0) with
      | none => 0
      | some n => if c.status n ≠ .pending ∨ change = true then n else 0

/-- `cache_insert`, cache.c:95-102. -/
def insert (ops : Ops) (c : Cache σ) (n : Nat) : Option (Cache σ) :=
  (Bloom.hashtblIndex (BitVec.ofNat 64 c.size) (ops.hash (c.tag n))).map fun index =>
    { c with bucket := upd c.bucket index (n :: c.bucket index) }

/-- `bfdev_hashtbl_del`, hashtbl.h:93-97. -/
def hashDel (c : Cache σ) (n : Nat) : Cache σ := { c with bucket := fun i => (c.bucket i).erase n }

/-- The choice of a node, cache.c:112-121: from the policy when no node is free. -/
def choose (a : Algo σ) (c : Cache σ) : Option (Cache σ × Nat) :=
  match c.freed with
  | [] => (a.obtain c.algo).map fun r => (hashDel { c with algo := r.2 } r.1, r.1)
  | n :: _ => some (c, n)

/-- `cache_obtain`, cache.c:105-133, after the choice. -/
def assign (a : Algo σ) (ops : Ops) (c : Cache σ) (n tag : Nat) : Option (Cache σ) :=
  let c := { c with algo := a.clear c.algo n, tag := upd c.tag n tag, status := upd c.status n .pending }
  let c := unlink c n
  insert ops { c with changing := n :: c.changing } n

/-- `bfdev_cache_find`, cache.c:135-139. -/
def find (ops : Ops) (c : Cache σ) (tag : Nat) : Option Nat := lookup ops c tag false

/-- The hit path of `bfdev_cache_obtain`, cache.c:153-178. -/
def hit (a : Algo σ) (c : Cache σ) (n : Nat) (uncommitted : Bool) : Option (Cache σ × Nat) :=
  let c := { c with hits := (c.hits + 1) % W }
  if c.status n = .pending then
    if !uncommitted then some (c, 0)
    else some ({ c with refcnt := upd c.refcnt n ((c.refcnt n + 1) % W) }, n)
  else
    (if c.status n = .managed then a.get c.algo n else some c.algo).map fun s =>
      let c := { c with algo := a.update s n }
      let c := { c with used := if c.refcnt n = 0 then (c.used + 1) % W else c.used, refcnt := upd c.refcnt n ((c.refcnt n + 1) % W) }
      let c := unlink c n
      ({ c with inUse := n :: c.inUse, status := upd c.status n .busy }, n)

/-- The miss path of `bfdev_cache_obtain`, cache.c:180-201. -/
def miss (a : Algo σ) (ops : Ops) (c : Cache σ) (tag : Nat) (change : Bool) : Option (Cache σ × Nat) :=
  let c := { c with misses := (c.misses + 1) % W }
  if !change then some (c, 0)
  else
    let c := { c with dirty := true }
    if c.freed.isEmpty && a.starving c.algo then some ({ c with starving := true }, 0)
    else if c.pending ≥ c.maxpend then some (c, 0)
    else
      (choose a c).bind fun r => (assign a ops r.1 r.2 tag).map fun c =>
        ({ c with starving := false, refcnt := upd c.refcnt r.2 ((c.refcnt r.2 + 1) % W), pending := (c.pending + 1) % W,
                  used := (c.used + 1) % W }, r.2)

/-- `bfdev_cache_obtain`, cache.c:141-202; the two flags are `BFDEV_CACHE_CHANGE` and `BFDEV_CACHE_UNCOMMITTED`. -/
def obtain (a : Algo σ) (ops : Ops) (c : Cache σ) (tag : Nat) (change uncommitted : Bool) : Option (Cache σ × Nat) :=
  if c.starving then some ({ c with starve := (c.starve + 1) % W }, 0)
  else
    (lookup ops c tag true).bind fun n =>
      if n ≠ 0 then hit a c n uncommitted else miss a ops c tag change

/-- `bfdev_cache_put`, cache.c:204-220; -EINVAL as an unsigned number. -/
def put (a : Algo σ) (c : Cache σ) (n : Nat) : Option (Cache σ × Nat) :=
  if c.status n ≠ .busy then some (c, W - 22)
  else
    let c := { c with refcnt := upd c.refcnt n ((c.refcnt n + W - 1) % W) }
    if c.refcnt n = 0 then
      let c := unlink { c with starving := false } n
      (a.put c.algo n).map fun s =>
        ({ c with algo := s, status := upd c.status n .managed, used := (c.used + W - 1) % W }, c.refcnt n)
    else some (c, c.refcnt n)

/-- `bfdev_cache_set`, cache.c:222-243. -/
def set (a : Algo σ) (ops : Ops) (c : Cache σ) (n tag : Nat) : Option (Cache σ × Int) :=
  if c.status n ≠ .managed then some (c, -16)
  else
    let c := { c with tag := upd c.tag n tag }
    (a.get c.algo n).bind fun s =>
      (insert ops (hashDel { c with algo := s } n) n).bind fun c =>
        (a.put (a.update c.algo n) n).map fun s => ({ c with algo := s }, 0)

/-- `bfdev_cache_del`, cache.c:245-261. -/
def del (a : Algo σ) (c : Cache σ) (n : Nat) : Option (Cache σ × Int) :=
  if c.status n ≠ .managed then some (c, -16)
  else
    let c := { c with status := upd c.status n .freed }
    (a.get c.algo n).map fun s =>
      let c := unlink (hashDel { c with algo := s } n) n
      ({ c with freed := n :: c.freed }, 0)

/-- The body of the loop of `bfdev_cache_committed`, cache.c:269-271. -/
def commitOne (c : Cache σ) (n : Nat) : Cache σ :=
  let c := unlink c n
  { c with inUse := n :: c.inUse, status := upd c.status n .busy, changed := (c.changed + 1) % W }

/-- `bfdev_cache_committed`, cache.c:263-275. -/
def committed (c : Cache σ) : Cache σ := { c.changing.foldl commitOne c with pending := 0 }

/-- `bfdev_cache_reset`, cache.c:277-301. -/
def reset (a : Algo σ) (c : Cache σ) : Cache σ :=
  { c with
    dirty := false, starving := false, pending := 0, used := 0, hits := 0, misses := 0, starve := 0, inUse := [], changing := [],
    algo := a.reset c.algo c.size, bucket := fun _ => [], freed := (List.range' 1 c.size).foldl (fun l n => n :: l) [] }

/-- `bfdev_cache_create`, cache.c:303-354, with memory granted: `some none` is NULL. -/
def create (s : σ) (size : BitVec 64) (maxpend : Nat) : Option (Option (Cache σ)) :=
  (Scan.pow2Roundup size).map fun size =>
    if size.toNat < 2 then none
    else some {
      size := size.toNat, maxpend := maxpend, inUse := [], freed := (List.range' 1 size.toNat).foldl (fun l n => n :: l) [],
      changing := [], bucket := fun _ => [], status := fun _ => .freed, refcnt := fun _ => 0, tag := fun _ => 0, data := fun _ => 0,
      dirty := false, starving := false, used := 0, pending := 0, changed := 0, starve := 0, hits := 0, misses := 0, algo := s }

/-- The policy of lru.c:25-78, 139-149: a list, most recently released first. -/
def lru : Algo (List Nat) where
  starving l := l.isEmpty
  obtain l := l.getLast?.map fun n => (n, l.erase n)
  get l n := if n ∈ l then some (l.erase n) else none
  put l n := some (n :: l)
  update l _ := l
  clear l _ := l
  reset _ _ := []

/-- `struct lfu_head` and the counts of `struct lfu_node`, lfu.c:10-19. -/
structure Lfu where
  heap : Heap.State
  count : Nat → Nat

/-- `lfu_compare`, lfu.c:30-43. -/
def lfuCmp (count : Nat → Nat) (n m : Nat) : Int := if count n = count m then 0 else if count n > count m then 1 else -1

/-- The policy of lfu.c:45-125, 186-198; `fuel` bounds the loops of the heap. -/
def lfu (fuel : Nat) : Algo Lfu where
  starving s := s.heap.root == 0
  obtain s := if s.heap.root = 0 then none else (Heap.delete (lfuCmp s.count) fuel s.heap s.heap.root).map fun h => (s.heap.root, { s with heap := h })
  get s n := (Heap.delete (lfuCmp s.count) fuel s.heap n).map fun h => { s with heap := h }
  put s n := (Heap.insert (lfuCmp s.count) fuel s.heap n).map fun h => { s with heap := h }
  update s n := { s with count := upd s.count n ((s.count n + 1) % W) }
  clear s n := { s with count := upd s.count n 0 }
  reset s size := ⟨Heap.init s.heap, fun n => if 1 ≤ n ∧ n ≤ size then 0 else s.count n⟩

end Bfdev.Cache

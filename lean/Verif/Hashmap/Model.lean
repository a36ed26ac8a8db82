import Verif.Hlist.Model
import Verif.Bloom.Model
import Verif.Common.Loop
/-!
Model of `src/hashmap.c` on top of the pointer-level chains of `Verif.Hlist`. A bucket array is a block of list heads of eight bytes
each, so bucket `i` of the array at `p` is the structure at address `p + 8 * i`. The user's callbacks are arbitrary functions; `malloc` is
an arbitrary function from a size to a block or NULL (its contract is stated with the theorems). A block too small for the array that
is put into it, a shift by 64 or more and a chain that does not end are the failing outcome `none`.
-/
namespace Bfdev.Hashmap
open Bfdev.Dlist (Addr Heap)

/-- `struct bfdev_hashmap`, hashmap.h:38-47, without the constant pointers to allocator, callbacks and user data. -/
structure Map where
  buckets : Addr
  bits : Nat
  capacity : Nat
  used : Nat
  deriving DecidableEq, Repr

/-- `struct bfdev_hashmap_ops`, hashmap.h:49-57; keys have any type `κ`. `extend` and `shrink` may be NULL. -/
structure Ops (κ : Type) where
  hashKey : κ → BitVec 64
  hashNode : Addr → BitVec 64
  equal : Addr → Addr → Int
  find : Addr → κ → Int
  extend : Option (Map → Bool)
  shrink : Option (Map → Bool)

/-- `enum bfdev_hashmap_strategy`, hashmap.h:31-36. -/
inductive Strategy where
  | add | set | update | append
  deriving DecidableEq, Repr

/-- `bfdev_hashmap_init`, hashmap.h:59-81: everything not named is zero. -/
def init : Map := ⟨0, 0, 0, 0⟩

/-- `hashmap_need_extend`, hashmap.c:62-76; the product is an `unsigned long`. -/
def needExtend {κ : Type} (ops : Ops κ) (m : Map) : Bool :=
  if m.capacity = 0 then true
  else match ops.extend with
    | some f => f m
    | none => decide (m.used * 4 % 2 ^ 64 / 3 > m.capacity)

/-- `hashmap_need_shrink`, hashmap.c:78-89. -/
def needShrink {κ : Type} (ops : Ops κ) (m : Map) : Bool :=
  match ops.shrink with
  | some f => f m
  | none => decide (m.used * 4 % 2 ^ 64 < m.capacity)

/-- `BFDEV_HASHTBL_MASK`, hashtbl.h:30, `BFDEV_BIT_LOW_MASK` of bits.h. -/
def mask (size : Nat) : Option Nat := (Scan.ilog2Dynamic (BitVec.ofNat 64 size)).map fun b => 2 ^ b - 1

/-- The head `&head[index & BFDEV_HASHTBL_MASK(size)]` of hashtbl.h:106-107. -/
def masked (buckets size index : Nat) : Option Addr := (mask size).map fun k => buckets + 8 * (index &&& k)

/-- The loop bodies of hashmap.c:102-105 and 121-124: the first node of a chain that `hit` accepts, 0 if there is none. -/
def search (s : Heap) (hit : Addr → Bool) : Nat → Addr → Option Addr
  | 0, _ => none
  | fuel + 1, walk => if walk = 0 then some 0 else if hit walk then some walk else search s hit fuel (s.next walk)

/-- `hashmap_find_node`, hashmap.c:91-108. -/
def findNode {κ : Type} (ops : Ops κ) (fuel : Nat) (s : Heap) (m : Map) (node : Addr) (hash : BitVec 64) : Option Addr :=
  if m.buckets = 0 then some 0
  else (Bloom.hashtblIndex (BitVec.ofNat 64 m.capacity) hash).bind fun index =>
    (masked m.buckets m.capacity index).bind fun head => search s (fun walk => ops.equal node walk == 0) fuel (s.next head)

/-- `hashmap_find_key`, hashmap.c:110-127. -/
def findKey {κ : Type} (ops : Ops κ) (fuel : Nat) (s : Heap) (m : Map) (key : κ) (hash : BitVec 64) : Option Addr :=
  if m.buckets = 0 then some 0
  else (Bloom.hashtblIndex (BitVec.ofNat 64 m.capacity) hash).bind fun index =>
    (masked m.buckets m.capacity index).bind fun head => search s (fun walk => ops.find walk key == 0) fuel (s.next head)

/-- `bfdev_hashtbl_init`, hashtbl.h:46-53. -/
def tblInit (s : Heap) (head size : Nat) : Option Heap := forN size (fun i s => some (Hlist.headInit s (head + 8 * i))) s

/-- `bfdev_hashtbl_add`, hashtbl.h:78-87. -/
def tblAdd (s : Heap) (head size : Nat) (node : Addr) (key : BitVec 64) : Option Heap :=
  (Bloom.hashtblIndex (BitVec.ofNat 64 size) key).map fun index => Hlist.headAdd s (head + 8 * index) node

/-- The inner loop of `bfdev_hashmap_for_each_safe` (hlist.h:318-320) with the body hashmap.c:146-148. -/
def drain {κ : Type} (ops : Ops κ) (nbuckets ncapacity : Nat) : Nat → Heap → Addr → Option Heap
  | 0, _, _ => none
  | fuel + 1, s, walk =>
    if walk = 0 then some s
    else
      let tmp := s.next walk
      (Hlist.del s walk).bind fun s1 => (tblAdd s1 nbuckets ncapacity walk (ops.hashNode walk)).bind fun s2 => drain ops nbuckets ncapacity fuel s2 tmp

/-- `hashmap_rehash`, hashmap.c:129-157. The size passed to `malloc` is computed as a `size_t` (`bfdev_malloc_array`, allocator.h:95-100). -/
def rehash {κ : Type} (ops : Ops κ) (malloc : Nat → Option Addr) (fuel : Nat) (s : Heap) (m : Map) (nbits : Nat) : Option (Heap × Map × Int) :=
  if nbits ≥ 64 then none
  else
    let ncapacity := 2 ^ nbits
    match malloc (ncapacity * 8 % 2 ^ 64) with
    | none => some (s, m, -12)
    | some nbuckets =>
      if ncapacity * 8 % 2 ^ 64 < ncapacity * 8 then none
      else (tblInit s nbuckets ncapacity).bind fun s =>
        (forN m.capacity (fun index s => (masked m.buckets m.capacity index).bind fun head => drain ops nbuckets ncapacity fuel s (s.next head)) s).map fun s =>
          (s, { m with bits := nbits, capacity := ncapacity, buckets := nbuckets }, 0)

/-- `hashmap_extend`, hashmap.c:159-169, BFDEV_HASHMAP_MIN_BITS of hashmap.h. -/
def extend {κ : Type} (ops : Ops κ) (malloc : Nat → Option Addr) (fuel : Nat) (s : Heap) (m : Map) : Option (Heap × Map × Int) :=
  let nbits := (m.bits + 1) % 2 ^ 32
  let nbits := if nbits < 4 then 4 else nbits
  rehash ops malloc fuel s m nbits

/-- `hashmap_shrink`, hashmap.c:171-181. -/
def shrink {κ : Type} (ops : Ops κ) (malloc : Nat → Option Addr) (fuel : Nat) (s : Heap) (m : Map) : Option (Heap × Map × Int) :=
  let nbits := (m.bits + 2 ^ 32 - 1) % 2 ^ 32
  let nbits := if nbits < 4 then 4 else nbits
  rehash ops malloc fuel s m nbits

/-- What a call leaves behind: memory, the map, the return value and the node stored through the result pointer, if one was. -/
structure Out where
  heap : Heap
  map : Map
  code : Int
  node : Option Addr

/-- The tail of `bfdev_hashmap_insert`, hashmap.c:215-218. -/
def insertTail (s : Heap) (m : Map) (node : Addr) (value : BitVec 64) : Option Out :=
  (tblAdd s m.buckets m.capacity node value).map fun s => ⟨s, { m with used := (m.used + 1) % 2 ^ 64 }, 0, none⟩

/-- `bfdev_hashmap_insert` from hashmap.c:205 on: no entry was found, or none was looked for. -/
def insertNew {κ : Type} (ops : Ops κ) (malloc : Nat → Option Addr) (fuel : Nat) (s : Heap) (m : Map) (node : Addr) (st : Strategy) : Option Out :=
  if st = .update then some ⟨s, m, -2, none⟩
  else if needExtend ops m then
    (extend ops malloc fuel s m).bind fun r =>
      if r.2.2 ≠ 0 then some ⟨r.1, r.2.1, r.2.2, none⟩ else insertTail r.1 r.2.1 node (ops.hashNode node)
  else insertTail s m node (ops.hashNode node)

/-- `bfdev_hashmap_insert`, hashmap.c:183-219. -/
def insert {κ : Type} (ops : Ops κ) (malloc : Nat → Option Addr) (fuel : Nat) (s : Heap) (m : Map) (node : Addr) (st : Strategy) : Option Out :=
  if st ≠ .append then
    (findNode ops fuel s m node (ops.hashNode node)).bind fun exist =>
      if exist ≠ 0 then
        if st = .add then some ⟨s, m, -17, some exist⟩
        else (Hlist.replace s exist node).map fun s => ⟨s, m, 0, some exist⟩
      else insertNew ops malloc fuel s m node st
  else insertNew ops malloc fuel s m node st

/-- `bfdev_hashmap_del`, hashmap.c:221-242. -/
def del {κ : Type} (ops : Ops κ) (malloc : Nat → Option Addr) (fuel : Nat) (s : Heap) (m : Map) (key : κ) : Option Out :=
  (findKey ops fuel s m key (ops.hashKey key)).bind fun exist =>
    if exist = 0 then some ⟨s, m, -2, none⟩
    else (Hlist.delInit s exist).bind fun s =>
      let m := { m with used := (m.used + 2 ^ 64 - 1) % 2 ^ 64 }
      if needShrink ops m then (shrink ops malloc fuel s m).map fun r => ⟨r.1, r.2.1, 0, some exist⟩
      else some ⟨s, m, 0, some exist⟩

/-- `bfdev_hashmap_find`, hashmap.c:244-254. -/
def find {κ : Type} (ops : Ops κ) (fuel : Nat) (s : Heap) (m : Map) (key : κ) : Option Addr := findKey ops fuel s m key (ops.hashKey key)

/-- `bfdev_hashmap_release`, hashmap.c:256-268. -/
def release (_m : Map) : Map := ⟨0, 0, 0, 0⟩

/-- `bfdev_hashmap_for_each`, hashmap.h:151-153 and hashtbl.h:153-155, collecting the nodes visited. -/
def forEach (fuel : Nat) (s : Heap) (m : Map) : Option (List Addr) :=
  forN m.capacity (fun index l => (masked m.buckets m.capacity index).bind fun head => (Hlist.forEach s head fuel).map (l ++ ·)) []

end Bfdev.Hashmap

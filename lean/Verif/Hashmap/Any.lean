import Verif.Hashmap.Props
/-!
C116: the hash map with callbacks that answer anything, and the memory of its tables. A hash function that changes its mind, an
equality that is none and resize policies that are nonsense may give wrong answers to the user, but the map must neither lose nor invent
nodes, nor break its chains, nor leak a table.

The functions of `Verif.Hashmap.Model` are written once more with callbacks that are told how many callbacks were called before, so that the
answers are an arbitrary sequence of answers, and with the blocks that the allocator handed out to the map. The theorems with suffix
`_plain` say that for callbacks that do not look at the number the functions are those of `Verif.Hashmap.Model`.
-/
namespace Bfdev.Hashmap
open Bfdev.Dlist (Addr Heap)
open Bfdev.Hlist (Chain IsChain World Step step_sound_partial)

/-- `struct bfdev_hashmap_ops`, hashmap.h:49-57, with callbacks that may answer differently each time: the first argument is the number of
callbacks called before. -/
structure AnyOps (κ : Type) where
  hashKey : Nat → κ → BitVec 64
  hashNode : Nat → Addr → BitVec 64
  equal : Nat → Addr → Addr → Int
  find : Nat → Addr → κ → Int
  extend : Option (Nat → Map → Bool)
  shrink : Option (Nat → Map → Bool)

/-- The callbacks of `Ops`, which always answer the same. -/
def Ops.any {κ : Type} (o : Ops κ) : AnyOps κ :=
  ⟨fun _ => o.hashKey, fun _ => o.hashNode, fun _ => o.equal, fun _ => o.find, o.extend.map fun f _ => f, o.shrink.map fun f _ => f⟩

/-- Memory, the map, the blocks handed out to the map and not given back (address and size), and the number of callbacks called. -/
structure St where
  heap : Heap
  map : Map
  blocks : List (Addr × Nat)
  calls : Nat

/-- `bfdev_free`, allocator.h: NULL does nothing, a block that is not handed out is undefined. -/
def giveBack (bl : List (Addr × Nat)) (p : Addr) : Option (List (Addr × Nat)) :=
  if p = 0 then some bl
  else match bl.find? (fun b => b.1 == p) with
    | none => none
    | some b => some (bl.erase b)

/-- `hashmap_need_extend`, hashmap.c:62-76. -/
def askExtend {κ : Type} (ops : AnyOps κ) (m : Map) (c : Nat) : Bool × Nat :=
  if m.capacity = 0 then (true, c)
  else match ops.extend with
    | some f => (f c m, c + 1)
    | none => (decide (m.used * 4 % 2 ^ 64 / 3 > m.capacity), c)

/-- `hashmap_need_shrink`, hashmap.c:78-89. -/
def askShrink {κ : Type} (ops : AnyOps κ) (m : Map) (c : Nat) : Bool × Nat :=
  match ops.shrink with
  | some f => (f c m, c + 1)
  | none => (decide (m.used * 4 % 2 ^ 64 < m.capacity), c)

/-- The loop bodies of hashmap.c:102-105 and 121-124: each node of the chain is one question. -/
def askSearch (s : Heap) (hit : Nat → Addr → Bool) : Nat → Nat → Addr → Option (Addr × Nat)
  | 0, _, _ => none
  | fuel + 1, c, walk =>
    if walk = 0 then some (0, c) else if hit c walk then some (walk, c + 1) else askSearch s hit fuel (c + 1) (s.next walk)

/-- The common part of `hashmap_find_node` and `hashmap_find_key`, hashmap.c:91-127. -/
def askBucket (fuel : Nat) (s : Heap) (m : Map) (hit : Nat → Addr → Bool) (c : Nat) (hash : BitVec 64) : Option (Addr × Nat) :=
  if m.buckets = 0 then some (0, c)
  else (Bloom.hashtblIndex (BitVec.ofNat 64 m.capacity) hash).bind fun index =>
    (masked m.buckets m.capacity index).bind fun head => askSearch s hit fuel c (s.next head)

/-- The inner loop of `bfdev_hashmap_for_each_safe` (hlist.h:318-320) with the body hashmap.c:146-148; each node is hashed once. -/
def askDrain {κ : Type} (ops : AnyOps κ) (nbuckets ncapacity : Nat) : Nat → Heap × Nat → Addr → Option (Heap × Nat)
  | 0, _, _ => none
  | fuel + 1, x, walk =>
    if walk = 0 then some x
    else
      let tmp := x.1.next walk
      (Hlist.del x.1 walk).bind fun s1 => (tblAdd s1 nbuckets ncapacity walk (ops.hashNode x.2 walk)).bind fun s2 =>
        askDrain ops nbuckets ncapacity fuel (s2, x.2 + 1) tmp

/-- `hashmap_rehash`, hashmap.c:129-157: the new table is a block handed out, the old one is given back. -/
def askRehash {κ : Type} (ops : AnyOps κ) (malloc : Nat → Option Addr) (fuel : Nat) (t : St) (nbits : Nat) : Option (St × Int) :=
  if nbits ≥ 64 then none
  else
    let ncapacity := 2 ^ nbits
    match malloc (ncapacity * 8 % 2 ^ 64) with
    | none => some (t, -12)
    | some nbuckets =>
      if ncapacity * 8 % 2 ^ 64 < ncapacity * 8 then none
      else (tblInit t.heap nbuckets ncapacity).bind fun s =>
        (forN t.map.capacity (fun index x => (masked t.map.buckets t.map.capacity index).bind fun head =>
            askDrain ops nbuckets ncapacity fuel x (x.1.next head)) (s, t.calls)).bind fun x =>
          (giveBack ((nbuckets, ncapacity * 8 % 2 ^ 64) :: t.blocks) t.map.buckets).map fun bl =>
            (⟨x.1, { t.map with bits := nbits, capacity := ncapacity, buckets := nbuckets }, bl, x.2⟩, 0)

/-- `hashmap_extend`, hashmap.c:159-169. -/
def askGrow {κ : Type} (ops : AnyOps κ) (malloc : Nat → Option Addr) (fuel : Nat) (t : St) : Option (St × Int) :=
  let nbits := (t.map.bits + 1) % 2 ^ 32
  let nbits := if nbits < 4 then 4 else nbits
  askRehash ops malloc fuel t nbits

/-- `hashmap_shrink`, hashmap.c:171-181. -/
def askReduce {κ : Type} (ops : AnyOps κ) (malloc : Nat → Option Addr) (fuel : Nat) (t : St) : Option (St × Int) :=
  let nbits := (t.map.bits + 2 ^ 32 - 1) % 2 ^ 32
  let nbits := if nbits < 4 then 4 else nbits
  askRehash ops malloc fuel t nbits

/-- What a call leaves behind: the state, the return value and the node stored through the result pointer, if one was. -/
structure AnyOut where
  st : St
  code : Int
  node : Option Addr

/-- The tail of `bfdev_hashmap_insert`, hashmap.c:215-218. -/
def askTail (t : St) (node : Addr) (value : BitVec 64) : Option AnyOut :=
  (tblAdd t.heap t.map.buckets t.map.capacity node value).map fun s =>
    ⟨{ t with heap := s, map := { t.map with used := (t.map.used + 1) % 2 ^ 64 } }, 0, none⟩

/-- `bfdev_hashmap_insert` from hashmap.c:205 on; `value` is the answer to the first question for the hash. -/
def askNew {κ : Type} (ops : AnyOps κ) (malloc : Nat → Option Addr) (fuel : Nat) (t : St) (node : Addr) (st : Strategy) (value : BitVec 64) : Option AnyOut :=
  if st = .update then some ⟨t, -2, none⟩
  else
    let q := askExtend ops t.map t.calls
    let t := { t with calls := q.2 }
    if q.1 then
      (askGrow ops malloc fuel t).bind fun r =>
        if r.2 ≠ 0 then some ⟨r.1, r.2, none⟩
        else askTail { r.1 with calls := r.1.calls + 1 } node (ops.hashNode r.1.calls node)
    else askTail t node value

/-- `bfdev_hashmap_insert`, hashmap.c:183-219. -/
def askInsert {κ : Type} (ops : AnyOps κ) (malloc : Nat → Option Addr) (fuel : Nat) (t : St) (node : Addr) (st : Strategy) : Option AnyOut :=
  let value := ops.hashNode t.calls node
  let t := { t with calls := t.calls + 1 }
  if st ≠ .append then
    (askBucket fuel t.heap t.map (fun c walk => ops.equal c node walk == 0) t.calls value).bind fun r =>
      let t := { t with calls := r.2 }
      if r.1 ≠ 0 then
        if st = .add then some ⟨t, -17, some r.1⟩
        else (Hlist.replace t.heap r.1 node).map fun s => ⟨{ t with heap := s }, 0, some r.1⟩
      else askNew ops malloc fuel t node st value
  else askNew ops malloc fuel t node st value

/-- The tail of `bfdev_hashmap_del`, hashmap.c:232-241, with the memory `s` after the unlinking and the new count. -/
def askCut {κ : Type} (ops : AnyOps κ) (malloc : Nat → Option Addr) (fuel : Nat) (t : St) (s : Heap) (used : Nat) (exist : Addr) : Option AnyOut :=
  let m := { t.map with used := used }
  let q := askShrink ops m t.calls
  let t := { t with heap := s, map := m, calls := q.2 }
  if q.1 then (askReduce ops malloc fuel t).map fun x => ⟨x.1, 0, some exist⟩
  else some ⟨t, 0, some exist⟩

/-- `bfdev_hashmap_del`, hashmap.c:221-242. -/
def askDel {κ : Type} (ops : AnyOps κ) (malloc : Nat → Option Addr) (fuel : Nat) (t : St) (key : κ) : Option AnyOut :=
  let value := ops.hashKey t.calls key
  (askBucket fuel t.heap t.map (fun c walk => ops.find c walk key == 0) (t.calls + 1) value).bind fun r =>
    let t := { t with calls := r.2 }
    if r.1 = 0 then some ⟨t, -2, none⟩
    else (Hlist.delInit t.heap r.1).bind fun s => askCut ops malloc fuel t s ((t.map.used + 2 ^ 64 - 1) % 2 ^ 64) r.1

/-- `bfdev_hashmap_find`, hashmap.c:244-254. -/
def askFind {κ : Type} (ops : AnyOps κ) (fuel : Nat) (t : St) (key : κ) : Option AnyOut :=
  (askBucket fuel t.heap t.map (fun c walk => ops.find c walk key == 0) (t.calls + 1) (ops.hashKey t.calls key)).map fun r =>
    ⟨{ t with calls := r.2 }, 0, if r.1 = 0 then none else some r.1⟩

/-- `bfdev_hashmap_release`, hashmap.c:256-268. -/
def askRelease (t : St) : Option AnyOut :=
  (giveBack t.blocks t.map.buckets).map fun bl => ⟨{ t with map := release t.map, blocks := bl }, 0, none⟩

/-- Run a call. -/
def Op.ask {κ : Type} (ops : AnyOps κ) (malloc : Nat → Option Addr) (fuel : Nat) (t : St) : Op κ → Option AnyOut
  | .insert node _ st => askInsert ops malloc fuel t node st
  | .del key => askDel ops malloc fuel t key
  | .find key => askFind ops fuel t key
  | .release => askRelease t

/-! ### Specification -/

/-- Which answers are possible when the map holds the nodes `ns`, whatever the callbacks say: the node returned is always one of the map,
and the callback said of it that it is the one. -/
def Possible {κ : Type} (ops : AnyOps κ) (nomem : Prop) (ns : List Addr) : Op κ → Int → Option Addr → Prop
  | .insert n _ st, code, node =>
    (∃ e ∈ ns, (∃ c, ops.equal c n e = 0) ∧ node = some e ∧ st ≠ .append ∧ code = if st = .add then -17 else 0) ∨
      (node = none ∧ if st = .update then code = -2 else code = 0 ∨ code = -12 ∧ nomem)
  | .del key, code, node => (∃ e ∈ ns, (∃ c, ops.find c e key = 0) ∧ node = some e ∧ code = 0) ∨ (node = none ∧ code = -2)
  | .find key, code, node => code = 0 ∧ ((∃ e ∈ ns, (∃ c, ops.find c e key = 0) ∧ node = some e) ∨ node = none)
  | .release, code, node => code = 0 ∧ node = none

/-- The nodes after a call that answered `code` and `node`. -/
def nodesAfter {κ : Type} (ns : List Addr) : Op κ → Int → Option Addr → List Addr
  | .insert n _ _, code, node =>
    if code ≠ 0 then ns
    else match node with
      | some e => ns.map fun x => if x = e then n else x
      | none => n :: ns
  | .del _, code, node => if code ≠ 0 then ns else ns.filter fun x => some x ≠ node
  | .find _, _, _ => ns
  | .release, _, _ => []

/-- The addresses in use by the map: its nodes and the heads of its buckets. -/
def liveOf (m : Map) (ns : List Addr) : List Addr := ns ++ (List.range m.capacity).map fun i => m.buckets + 8 * i

/-- What is asked of the caller: the node to be inserted is not in use, and blocks overlap nothing in use. Nothing is asked of the
callbacks. -/
structure Lent {κ : Type} (malloc : Nat → Option Addr) (m : Map) (ns : List Addr) (op : Op κ) : Prop where
  node : ∀ n key st, op = .insert n key st → n ≠ 0 ∧ n ∉ liveOf m ns
  malloc : ∀ bytes q, malloc bytes = some q → q ≠ 0 ∧ bytes < 2 ^ 63 ∧ ∀ a ∈ liveOf m ns ++ op.fresh, a < q ∨ q + bytes ≤ a

/-- The histories: a map is initialised, then any calls with any callbacks and any allocator; every call may have other ones. -/
inductive AnyReach (κ : Type) : St → List Addr → Prop
  | init {s c} : AnyReach κ ⟨s, init, [], c⟩ []
  | call {t ns ops malloc fuel} {op : Op κ} {out} : AnyReach κ t ns → Lent malloc t.map ns op → ns.length < fuel → ns.length + 1 < 2 ^ 64 →
      op.ask ops malloc fuel t = some out → AnyReach κ out.st (nodesAfter ns op out.code out.node)

/-- The memory of a map: one table of eight bytes per bucket, and none if there are no buckets. -/
def tableOf (m : Map) : List (Addr × Nat) := if m.capacity = 0 then [] else [(m.buckets, 8 * m.capacity)]

/-! ### The invariant -/

/-- The map in memory holds the nodes `ns`, in any buckets. -/
structure Keeps (t : St) (ns : List Addr) (Bs : List (List Addr)) : Prop where
  shape : Shape t.map
  len : Bs.length = t.map.capacity
  world : World t.heap (rows t.map.buckets Bs)
  perm : ns.Perm Bs.flatten
  used : t.map.used = ns.length
  small : ns.length < 2 ^ 64
  blocks : t.blocks = tableOf t.map

theorem Keeps.live_mem {t : St} {ns : List Addr} {Bs : List (List Addr)} (h : Keeps t ns Bs) (a : Nat) :
    a ∈ (rows t.map.buckets Bs).flatten ↔ a ∈ liveOf t.map ns := by
  rw [mem_rows_flatten, liveOf, List.mem_append, h.perm.mem_iff, h.len, List.mem_map]
  constructor
  · rintro (h | ⟨i, h1, h2⟩)
    · exact Or.inl h
    · exact Or.inr ⟨i, List.mem_range.2 h1, h2.symm⟩
  · rintro (h | ⟨i, h1, h2⟩)
    · exact Or.inl h
    · exact Or.inr ⟨i, List.mem_range.1 h1, h2.symm⟩

theorem Keeps.calls {t : St} {ns : List Addr} {Bs : List (List Addr)} (h : Keeps t ns Bs) (c : Nat) : Keeps { t with calls := c } ns Bs :=
  ⟨h.shape, h.len, h.world, h.perm, h.used, h.small, h.blocks⟩

/-- Searching a chain: the answer is NULL or a node of the chain that the callback accepted. -/
theorem askSearch_ok {s : Heap} {a : Addr} {l : List Addr} (h : Chain s a l) (hit : Nat → Addr → Bool) (fuel c : Nat) (hf : l.length < fuel) :
    ∃ r, askSearch s hit fuel c (s.next a) = some r ∧ (r.1 = 0 ∨ r.1 ≠ 0 ∧ r.1 ∈ l ∧ ∃ k, hit k r.1 = true) := by
  induction l generalizing a fuel c with
  | nil =>
    obtain ⟨f, rfl⟩ : ∃ f, fuel = f + 1 := ⟨fuel - 1, by simp at hf; omega⟩
    have : s.next a = 0 := h
    exact ⟨(0, c), by simp [askSearch, this], Or.inl rfl⟩
  | cons x l ih =>
    obtain ⟨f, rfl⟩ : ∃ f, fuel = f + 1 := ⟨fuel - 1, by simp at hf; omega⟩
    obtain ⟨h1, h2, h3, h4⟩ := h
    rw [h1, askSearch, if_neg h2]
    cases hx : hit c x with
    | true => exact ⟨(x, c + 1), by simp, Or.inr ⟨h2, by simp, c, hx⟩⟩
    | false =>
      simp only [Bool.false_eq_true, if_false]
      obtain ⟨r, e, hr⟩ := ih h4 f (c + 1) (by simp at hf; omega)
      refine ⟨r, e, ?_⟩
      rcases hr with hr | ⟨r0, r1, r2⟩
      · exact Or.inl hr
      · exact Or.inr ⟨r0, List.mem_cons_of_mem _ r1, r2⟩

theorem askBucket_ok {t : St} {ns : List Addr} {Bs : List (List Addr)} (h : Keeps t ns Bs) (fuel : Nat) (hf : ns.length < fuel) (hit : Nat → Addr → Bool)
    (c : Nat) (hash : BitVec 64) : ∃ r, askBucket fuel t.heap t.map hit c hash = some r ∧ (r.1 = 0 ∨ r.1 ≠ 0 ∧ r.1 ∈ ns ∧ ∃ k, hit k r.1 = true) := by
  rw [askBucket]
  rcases h.shape with ⟨h1, -⟩ | ⟨hb, hc, h4, h59⟩
  · exact ⟨(0, c), if_pos h1, Or.inl rfl⟩
  rw [if_neg hb]
  obtain ⟨e1, hs⟩ := slot_ok t.map.bits (by omega) (by omega) hash
  have hi : slot (2 ^ t.map.bits) hash < Bs.length := by rw [h.len, hc]; exact hs
  have hch : IsChain t.heap ((t.map.buckets + 8 * slot (2 ^ t.map.bits) hash) :: Bs[slot (2 ^ t.map.bits) hash]) := by
    obtain ⟨R, hp, -⟩ := rows_split t.map.buckets Bs _ hi
    exact h.world.chain _ (hp.mem_iff.2 (List.mem_cons_self ..))
  have hBm : Bs[slot (2 ^ t.map.bits) hash] ∈ Bs := List.getElem_mem hi
  obtain ⟨r, e, hr⟩ := askSearch_ok hch.2 hit fuel c (Nat.lt_of_le_of_lt (bucket_len hBm) (by rw [← h.perm.length_eq]; exact hf))
  refine ⟨r, ?_, ?_⟩
  · rw [hc, e1, Option.bind_some, masked_ok t.map.bits (by omega) _ _ hs, Option.bind_some, e]
  · rcases hr with hr | ⟨r0, r1, r2⟩
    · exact Or.inl hr
    · exact Or.inr ⟨r0, h.perm.mem_iff.2 (List.mem_flatten.2 ⟨_, hBm, r1⟩), r2⟩

/-- Moving a bucket over, with any hashes. -/
theorem askDrain_ok {κ : Type} (ops : AnyOps κ) {q b : Nat} (h1 : 1 ≤ b) (h2 : b ≤ 63) {W : List (List Addr)} {hd : Addr} :
    ∀ (l : List Addr) (x : Heap × Nat) (Ns : List (List Addr)) (fuel : Nat),
    Ns.length = 2 ^ b → l.length < fuel → World x.1 (rows q Ns ++ ((hd :: l) :: W)) →
    ∃ x' Ns', askDrain ops q (2 ^ b) fuel x (x.1.next hd) = some x' ∧ World x'.1 (rows q Ns' ++ ([hd] :: W)) ∧ Ns'.length = 2 ^ b ∧
      Ns'.flatten.Perm (l ++ Ns.flatten) := by
  intro l
  induction l with
  | nil =>
    intro x Ns fuel hl hf hw
    obtain ⟨f, rfl⟩ : ∃ f, fuel = f + 1 := ⟨fuel - 1, by simp at hf; omega⟩
    have : x.1.next hd = 0 := (hw.chain [hd] (by simp)).2
    exact ⟨x, Ns, by simp [askDrain, this], hw, hl, List.Perm.refl _⟩
  | cons y l ih =>
    intro x Ns fuel hl hf hw
    obtain ⟨f, rfl⟩ : ∃ f, fuel = f + 1 := ⟨fuel - 1, by simp at hf; omega⟩
    obtain ⟨h0, c1, c2, c3, c4⟩ := hw.chain (hd :: y :: l) (by simp)
    have hp : (rows q Ns ++ ((hd :: y :: l) :: W)).Perm ((hd :: [] ++ y :: l) :: (rows q Ns ++ W)) := List.perm_middle
    have hnd := (hp.flatten.nodup_iff).1 hw.nodup
    obtain ⟨s1, e1, w1⟩ := step_sound_partial hw (Step.perm hp Step.del)
    have w1' : World s1 (rows q Ns ++ ((hd :: l) :: W)) := Hlist.world_perm (List.perm_middle.symm) w1
    have hx : y ∉ (rows q Ns ++ ((hd :: l) :: W)).flatten := by
      intro hx
      have := (List.Perm.flatten (l₁ := rows q Ns ++ ((hd :: l) :: W)) List.perm_middle).mem_iff.1 hx
      revert this
      nds hnd
    obtain ⟨s2, e2, w2⟩ := tblAdd_ok h1 h2 hl w1' c2 hx (ops.hashNode x.2)
    obtain ⟨x', Ns', e3, w3, l3, p3⟩ := ih (s2, x.2 + 1) (push (ops.hashNode x.2) (2 ^ b) Ns y) f (by rw [push_length, hl]) (by simp at hf; omega) w2
    refine ⟨x', Ns', ?_, w3, l3, ?_⟩
    · have e4 : s2.next hd = x.1.next y := by
        rw [chain_head (w2.chain (hd :: l) (by simp)).2, chain_head c4]
      have e1' : Hlist.del x.1 y = some s1 := e1
      dsimp only at e3
      rw [c1, askDrain, if_neg c2]
      dsimp only
      rw [e1', Option.bind_some, e2, Option.bind_some, ← e4, e3]
    · exact (p3.trans ((push_perm (ops.hashNode x.2) b h1 h2 Ns hl y).append_left l)).trans List.perm_middle

/-- Moving all buckets over, with any hashes. -/
theorem askMove_ok {κ : Type} (ops : AnyOps κ) {q b ob : Nat} (h1 : 1 ≤ b) (h2 : b ≤ 63) (ho : ob ≤ 63) {p : Nat} {Bs : List (List Addr)} (hB : Bs.length = 2 ^ ob) (x : Heap × Nat)
    (fuel : Nat) (hf : ∀ B ∈ Bs, B.length < fuel) (hw : World x.1 (rows q (List.replicate (2 ^ b) []) ++ rows p Bs)) :
    ∃ x' Ns, forN (2 ^ ob) (fun index x => (masked p (2 ^ ob) index).bind fun head => askDrain ops q (2 ^ b) fuel x (x.1.next head)) x = some x' ∧
      World x'.1 (rows q Ns) ∧ Ns.length = 2 ^ b ∧ Ns.flatten.Perm Bs.flatten := by
  have key := forN_inv (P := fun i (t : Heap × Nat) => ∃ Ns, World t.1 (rows q Ns ++ rows p (List.replicate i [] ++ Bs.drop i)) ∧ Ns.length = 2 ^ b ∧
      Ns.flatten.Perm (Bs.take i).flatten) (2 ^ ob)
    (fun index x => (masked p (2 ^ ob) index).bind fun head => askDrain ops q (2 ^ b) fuel x (x.1.next head)) x
    ⟨List.replicate (2 ^ b) [], by simpa using hw, by simp, by simp⟩ (fun i hi t ht => ?_)
  · obtain ⟨x', e, Ns, w, l, pm⟩ := key
    refine ⟨x', Ns, e, (world_split w).1, l, ?_⟩
    rw [List.take_of_length_le (by omega)] at pm
    exact pm
  · have hi' : i < Bs.length := by omega
    obtain ⟨Ns, ht, hl, pm⟩ := ht
    rw [List.drop_eq_getElem_cons hi', rows_append, List.length_replicate, rows] at ht
    have hp : (rows q Ns ++ (rows p (List.replicate i []) ++ ((p + 8 * i) :: Bs[i]) :: rows (p + 8 * i + 8) (Bs.drop (i + 1)))).Perm
        (rows q Ns ++ (((p + 8 * i) :: Bs[i]) :: (rows p (List.replicate i []) ++ rows (p + 8 * i + 8) (Bs.drop (i + 1))))) :=
      List.Perm.append_left _ List.perm_middle
    obtain ⟨t', Ns', e, w, l', p'⟩ := askDrain_ok ops h1 h2 Bs[i] t Ns fuel hl (hf _ (List.getElem_mem hi')) (Hlist.world_perm hp ht)
    refine ⟨t', ?_, Ns', ?_, l', ?_⟩
    · rw [masked_ok ob ho p i hi, Option.bind_some, e]
    · rw [List.replicate_succ', List.append_assoc, rows_append, List.length_replicate]
      exact Hlist.world_perm (List.Perm.append_left _ List.perm_middle.symm) w
    · rw [List.take_add_one, List.getElem?_eq_getElem hi', Option.toList_some, List.flatten_append, List.flatten_singleton]
      exact (p'.trans (pm.append_left _)).trans List.perm_append_comm

/-- Giving back the table of the map, next to a block at another address. -/
theorem giveBack_table {m : Map} (hs : Shape m) (b : List (Addr × Nat)) (hb : ∀ x ∈ b, m.capacity ≠ 0 → x.1 ≠ m.buckets) :
    giveBack (b ++ tableOf m) m.buckets = some b := by
  rw [giveBack, tableOf]
  rcases hs with ⟨h1, h2, -⟩ | ⟨h1, hc, -⟩
  · rw [if_pos h1, if_pos h2, List.append_nil]
  · have hc0 : m.capacity ≠ 0 := by rw [hc]; simp
    rw [if_neg h1, if_neg hc0]
    have hb' : ∀ x ∈ b, ¬ ((x.1 == m.buckets) = true) := fun x hx => by simpa using hb x hx hc0
    have hf : (b ++ [(m.buckets, 8 * m.capacity)]).find? (fun x => x.1 == m.buckets) = some (m.buckets, 8 * m.capacity) := by
      rw [List.find?_append, List.find?_eq_none.2 hb']; simp
    rw [hf]
    dsimp only
    rw [List.erase_append_right]
    · simp
    · intro hm
      exact hb _ hm hc0 rfl

/-- Rehashing, with any hashes. -/
theorem askRehash_ok {κ : Type} {t : St} {ns : List Addr} {Bs : List (List Addr)} (h : Keeps t ns Bs)
    (ops : AnyOps κ) {malloc : Nat → Option Addr} {X : List Addr} (hm : Fresh malloc (liveOf t.map ns ++ X))
    (fuel : Nat) (hf : ns.length < fuel) (nbits : Nat) (h4 : 4 ≤ nbits) (h60 : nbits ≤ 60) :
    ∃ r, askRehash ops malloc fuel t nbits = some r ∧ ((Refuses malloc ∧ r = (t, -12)) ∨
      (r.2 = 0 ∧ r.1.map.buckets ≠ 0 ∧ (∃ Ns, Keeps r.1 ns Ns) ∧ ∀ a, a ∈ X → a ∉ ns → a ∉ liveOf r.1.map ns)) := by
  have hb63 : (2 ^ nbits * 8 : Nat) = 2 ^ (nbits + 3) := by rw [Nat.pow_add]
  have hb64 : (2 : Nat) ^ (nbits + 3) < 2 ^ 64 := Nat.pow_lt_pow_right (by decide) (by omega)
  have hmod : 2 ^ nbits * 8 % 2 ^ 64 = 2 ^ nbits * 8 := Nat.mod_eq_of_lt (by rw [hb63]; exact hb64)
  rw [askRehash, if_neg (by omega)]
  dsimp only
  rw [hmod]
  cases hq : malloc (2 ^ nbits * 8) with
  | none => exact ⟨_, rfl, Or.inl ⟨⟨_, hq⟩, rfl⟩⟩
  | some q =>
    obtain ⟨q0, qs, qd⟩ := hm _ _ hq
    have h59 : nbits ≤ 59 := by
      rw [hb63] at qs
      have := (Nat.pow_lt_pow_iff_right (a := 2) (by decide)).1 qs
      omega
    simp only [Nat.lt_irrefl, if_false]
    obtain ⟨s1, e1, w1⟩ := tblInit_ok h.world q (2 ^ nbits) q0 (fun i hi hmem => outside (qd _ (List.mem_append_left X ((h.live_mem _).1 hmem))) hi rfl)
    have hmove : ∃ x2 Ns, forN t.map.capacity (fun index x => (masked t.map.buckets t.map.capacity index).bind fun head =>
        askDrain ops q (2 ^ nbits) fuel x (x.1.next head)) (s1, t.calls) = some x2 ∧ World x2.1 (rows q Ns) ∧ Ns.length = 2 ^ nbits ∧ Ns.flatten.Perm Bs.flatten := by
      rcases h.shape with ⟨-, hc, -⟩ | ⟨-, hc, h4', h59'⟩
      · have : Bs = [] := List.length_eq_zero_iff.1 (by rw [h.len, hc])
        subst this
        rw [hc, forN]
        exact ⟨_, List.replicate (2 ^ nbits) [], rfl, (world_split w1).1, by simp, by simp⟩
      · rw [hc]
        exact askMove_ok ops (by omega) (by omega) (by omega) (by rw [h.len, hc]) (s1, t.calls) fuel
          (fun B hB => Nat.lt_of_le_of_lt (bucket_len hB) (by rw [← h.perm.length_eq]; exact hf)) w1
    obtain ⟨x2, Ns, e2, w2, l2, p2⟩ := hmove
    have hgb : giveBack ((q, 2 ^ nbits * 8) :: t.blocks) t.map.buckets = some [(q, 2 ^ nbits * 8)] := by
      rw [h.blocks]
      refine giveBack_table h.shape [(q, 2 ^ nbits * 8)] (fun x hx hc => ?_)
      rw [List.mem_singleton.1 hx]
      have hmem : t.map.buckets ∈ liveOf t.map ns ++ X := by
        rw [liveOf]
        refine List.mem_append_left _ (List.mem_append_right _ (List.mem_map.2 ⟨0, List.mem_range.2 (Nat.pos_of_ne_zero hc), by simp⟩))
      have hpos : 0 < 2 ^ nbits := Nat.pos_of_ne_zero (by simp)
      have := outside (qd _ hmem) hpos
      simpa using this
    refine ⟨_, by rw [e1, Option.bind_some, e2, Option.bind_some, hgb, Option.map_some], Or.inr ⟨rfl, q0, ⟨Ns, ?_⟩, ?_⟩⟩
    · refine ⟨Or.inr ⟨q0, rfl, h4, h59⟩, l2, w2, h.perm.trans p2.symm, h.used, h.small, ?_⟩
      show [(q, 2 ^ nbits * 8)] = tableOf { t.map with bits := nbits, capacity := 2 ^ nbits, buckets := q }
      rw [tableOf, if_neg (by simp), Nat.mul_comm]
    · intro a ha hna
      rw [liveOf, List.mem_append]
      rintro (h | h)
      · exact hna h
      · obtain ⟨i, hi, e⟩ := List.mem_map.1 h
        exact outside (qd a (List.mem_append_right _ ha)) (List.mem_range.1 hi) e

/-- Adding a node that was not in the map, into any bucket. -/
theorem askTail_ok {t : St} {ns : List Addr} {Bs : List (List Addr)} (h : Keeps t ns Bs) (hb : t.map.buckets ≠ 0)
    {n : Nat} (h0 : n ≠ 0) (hn : n ∉ liveOf t.map ns) (hlen : ns.length + 1 < 2 ^ 64) (v : BitVec 64) :
    ∃ out, askTail t n v = some out ∧ out.code = 0 ∧ out.node = none ∧ ∃ Ns, Keeps out.st (n :: ns) Ns := by
  rcases h.shape with ⟨h1, -⟩ | ⟨-, hc, h4, h59⟩
  · exact absurd h1 hb
  have hw : World t.heap (rows t.map.buckets Bs ++ []) := by rw [List.append_nil]; exact h.world
  have hnm : n ∉ (rows t.map.buckets Bs ++ []).flatten := by rw [List.append_nil, h.live_mem]; exact hn
  have hlB : Bs.length = 2 ^ t.map.bits := by rw [h.len, hc]
  obtain ⟨s', e, w⟩ := tblAdd_ok (by omega) (by omega) hlB hw h0 hnm (fun _ => v)
  rw [List.append_nil] at w
  refine ⟨_, by rw [askTail, show tblAdd t.heap t.map.buckets t.map.capacity n v = some s' by rw [hc]; exact e, Option.map_some], rfl, rfl, _, ⟨h.shape, ?_, w, ?_, ?_, hlen, h.blocks⟩⟩
  · rw [push_length, h.len]
  · exact (h.perm.cons n).trans (push_perm _ t.map.bits (by omega) (by omega) Bs hlB n).symm
  · show (t.map.used + 1) % 2 ^ 64 = ns.length + 1
    rw [h.used, Nat.mod_eq_of_lt hlen]

theorem askNew_ok {κ : Type} {t : St} {ns : List Addr} {Bs : List (List Addr)} (h : Keeps t ns Bs)
    (ops : AnyOps κ) {malloc : Nat → Option Addr} {n : Nat} (hm : Fresh malloc (liveOf t.map ns ++ [n]))
    (h0 : n ≠ 0) (hnl : n ∉ liveOf t.map ns) (fuel : Nat) (hf : ns.length < fuel) (hlen : ns.length + 1 < 2 ^ 64) (st : Strategy) (v : BitVec 64) :
    ∃ out, askNew ops malloc fuel t n st v = some out ∧ out.node = none ∧
      (((if st = .update then out.code = -2 else out.code = -12 ∧ Refuses malloc) ∧ ∃ Ns, Keeps out.st ns Ns) ∨
        (st ≠ .update ∧ out.code = 0 ∧ ∃ Ns, Keeps out.st (n :: ns) Ns)) := by
  have hnM : n ∉ ns := fun hx => hnl (by rw [liveOf]; exact List.mem_append_left _ hx)
  rw [askNew]
  by_cases hst : st = .update
  · rw [if_pos hst]
    exact ⟨_, rfl, rfl, Or.inl ⟨by rw [if_pos hst], Bs, h⟩⟩
  rw [if_neg hst]
  simp only [if_neg hst]
  cases hx : (askExtend ops t.map t.calls).1 with
  | false =>
    have hb : t.map.buckets ≠ 0 := by
      rcases h.shape with ⟨-, h1, -⟩ | ⟨h1, -⟩
      · rw [askExtend, if_pos h1] at hx; simp at hx
      · exact h1
    obtain ⟨out, e, e1, e2, Ns, hN⟩ := askTail_ok (h.calls (askExtend ops t.map t.calls).2) hb h0 hnl hlen v
    exact ⟨out, by simp only [Bool.false_eq_true, if_false]; exact e, e2, Or.inr ⟨hst, e1, Ns, hN⟩⟩
  | true =>
    simp only [if_true]
    generalize (askExtend ops t.map t.calls).2 = c
    have hbits : t.map.bits ≤ 59 := by
      rcases h.shape with ⟨-, -, h1⟩ | ⟨-, -, -, h1⟩
      · omega
      · exact h1
    have hmod : (t.map.bits + 1) % 2 ^ 32 = t.map.bits + 1 := Nat.mod_eq_of_lt (by omega)
    have key : ∀ nb, 4 ≤ nb → nb ≤ 60 → ∃ out, ((askRehash ops malloc fuel { t with calls := c } nb).bind fun r =>
        if r.2 ≠ 0 then some ⟨r.1, r.2, none⟩ else askTail { r.1 with calls := r.1.calls + 1 } n (ops.hashNode r.1.calls n)) = some out ∧ out.node = none ∧
      (((out.code = -12 ∧ Refuses malloc) ∧ ∃ Ns, Keeps out.st ns Ns) ∨ (st ≠ .update ∧ out.code = 0 ∧ ∃ Ns, Keeps out.st (n :: ns) Ns)) := by
      intro nb h4 h60
      obtain ⟨r, e, hr⟩ := askRehash_ok (h.calls c) ops hm fuel hf nb h4 h60
      rw [e, Option.bind_some]
      rcases hr with ⟨h1, rfl⟩ | ⟨h1, h3, ⟨Ns, hN⟩, h5⟩
      · exact ⟨⟨{ t with calls := c }, -12, none⟩, rfl, rfl, Or.inl ⟨⟨rfl, h1⟩, Bs, h.calls c⟩⟩
      · rw [if_neg (by rw [h1]; simp)]
        obtain ⟨out, e, e1, e2, Ns', hN'⟩ := askTail_ok (hN.calls (r.1.calls + 1)) h3 h0 (h5 n (by simp) hnM) hlen (ops.hashNode r.1.calls n)
        exact ⟨out, e, e2, Or.inr ⟨hst, e1, Ns', hN'⟩⟩
    simp only [askGrow, hmod]
    split
    · exact key 4 (by omega) (by omega)
    · exact key (t.map.bits + 1) (by omega) (by omega)

/-- The bucket a node is in. -/
theorem Keeps.place {t : St} {ns : List Addr} {Bs : List (List Addr)} (h : Keeps t ns Bs) {e : Addr} (he : e ∈ ns) :
    ∃ i l r, ∃ hi : i < Bs.length, Bs[i] = l ++ e :: r := by
  obtain ⟨B, hB, heB⟩ := List.mem_flatten.1 (h.perm.mem_iff.1 he)
  obtain ⟨i, hi, e1⟩ := List.mem_iff_getElem.1 hB
  obtain ⟨l, r, rfl⟩ := List.append_of_mem heB
  exact ⟨i, l, r, hi, e1⟩

/-- Replacing a node of the map by one that is not in it. -/
theorem askReplace_ok {t : St} {ns : List Addr} {Bs : List (List Addr)} (h : Keeps t ns Bs) {e n : Nat} (he : e ∈ ns) (h0 : n ≠ 0) (hnl : n ∉ liveOf t.map ns) :
    ∃ s', Hlist.replace t.heap e n = some s' ∧ ∃ Ns, Keeps { t with heap := s' } (ns.map fun x => if x = e then n else x) Ns := by
  obtain ⟨i, l, r, hi, hBe⟩ := h.place he
  obtain ⟨R, hp, hq⟩ := rows_split t.map.buckets Bs i hi
  rw [hBe] at hp
  have hnw : n ∉ (rows t.map.buckets Bs).flatten := fun hx => hnl ((h.live_mem n).1 hx)
  obtain ⟨s', e1, w1⟩ := step_sound_partial h.world (Step.perm hp (Step.replace (h := t.map.buckets + 8 * i) (l := l) (o := e) (r := r) h0
    (fun hx => hnw (hp.flatten.mem_iff.2 hx))))
  have hBn := nodup_buckets h.world
  refine ⟨s', e1, Bs.set i (l ++ n :: r), ⟨h.shape, by rw [List.length_set]; exact h.len, Hlist.world_perm (hq _).symm w1, ?_, by rw [List.length_map]; exact h.used,
    by rw [List.length_map]; exact h.small, h.blocks⟩⟩
  obtain ⟨R', hp', hq'⟩ := flatten_split Bs i hi
  rw [hBe] at hp'
  refine List.Perm.trans ?_ (hq' _).symm
  refine ((h.perm.trans hp').map _).trans (List.Perm.of_eq ?_)
  have hnd' := (hp'.nodup_iff).1 hBn
  have id1 : ∀ (L : List Nat), e ∉ L → (L.map fun x => if x = e then n else x) = L := by
    intro L hL
    conv => rhs; rw [← List.map_id L]
    apply List.map_congr_left
    intro x hx
    have hxe : x ≠ e := fun hh => hL (hh ▸ hx)
    rw [if_neg hxe]; rfl
  rw [List.map_append, List.map_append, List.map_cons, if_pos rfl, id1 l, id1 r, id1 R']
  · nds hnd'
  · nds hnd'
  · nds hnd'

/-- Unlinking a node of the map. -/
theorem askUnlink_ok {t : St} {ns : List Addr} {Bs : List (List Addr)} (h : Keeps t ns Bs) {e : Nat} (he : e ∈ ns) (u : Nat)
    (hu : u = (t.map.used + 2 ^ 64 - 1) % 2 ^ 64) : ∃ s', Hlist.delInit t.heap e = some s' ∧
      ∃ Ns, ∀ c, Keeps { t with heap := s', map := { t.map with used := u }, calls := c } (ns.filter fun x => some x ≠ some e) Ns := by
  obtain ⟨i, l, r, hi, hBe⟩ := h.place he
  obtain ⟨R, hp, hq⟩ := rows_split t.map.buckets Bs i hi
  rw [hBe] at hp
  obtain ⟨s', e1, w1⟩ := step_sound_partial h.world (Step.perm hp (Step.delInit (h := t.map.buckets + 8 * i) (l := l) (x := e) (r := r)))
  have hBn := nodup_buckets h.world
  obtain ⟨R', hp', hq'⟩ := flatten_split Bs i hi
  rw [hBe] at hp'
  have hnd' := (hp'.nodup_iff).1 hBn
  have hperm : (ns.filter fun x => some x ≠ some e).Perm (Bs.set i (l ++ r)).flatten := by
    refine List.Perm.trans ?_ (hq' _).symm
    refine ((h.perm.trans hp').filter _).trans (List.Perm.of_eq ?_)
    have id1 : ∀ (L : List Nat), e ∉ L → L.filter (fun x => some x ≠ some e) = L := by
      intro L hL
      refine List.filter_eq_self.2 (fun x hx => ?_)
      simp only [ne_eq, Option.some.injEq, decide_eq_true_eq]
      exact fun hh => hL (hh ▸ hx)
    rw [List.filter_append, List.filter_append, List.filter_cons, if_neg (by simp), id1 l, id1 r, id1 R']
    · nds hnd'
    · nds hnd'
    · nds hnd'
  have hl1 : (ns.filter fun x => some x ≠ some e).length + 1 = ns.length := by
    have h1 := hperm.length_eq
    have h2 := h.perm.length_eq
    have h3 := hp'.length_eq
    have h4 := (hq' (l ++ r)).length_eq
    simp only [List.length_append, List.length_cons] at h3 h4
    omega
  refine ⟨s', e1, Bs.set i (l ++ r), fun _ => ⟨h.shape, by rw [List.length_set]; exact h.len, Hlist.world_perm (hq _).symm w1, hperm, ?_, ?_, h.blocks⟩⟩
  · show u = _
    rw [hu, h.used]
    exact sub_one_mod hl1 h.small
  · exact Nat.lt_of_le_of_lt (List.length_filter_le ..) h.small

/-- The tail of a deletion. -/
theorem askCut_ok {κ : Type} {t : St} {ns : List Addr} {Bs : List (List Addr)} {s' : Heap} {u : Nat} {e : Addr} (h : ∀ c, Keeps { t with heap := s', map := { t.map with used := u }, calls := c } ns Bs)
    (ops : AnyOps κ) {malloc : Nat → Option Addr} (hm : Fresh malloc (liveOf t.map ns)) (hb : 4 ≤ t.map.bits ∧ t.map.bits ≤ 59) (fuel : Nat) (hf : ns.length < fuel) :
    ∃ out, askCut ops malloc fuel t s' u e = some out ∧ out.code = 0 ∧ out.node = some e ∧ ∃ Ns, Keeps out.st ns Ns := by
  rw [askCut]
  dsimp only
  generalize askShrink ops { t.map with used := u } t.calls = q
  split
  · have key' : ∀ nb, 4 ≤ nb → nb ≤ 60 → ∃ out, ((askRehash ops malloc fuel { t with heap := s', map := { t.map with used := u }, calls := q.2 } nb).map fun x => (⟨x.1, 0, some e⟩ : AnyOut)) = some out ∧
        out.code = 0 ∧ out.node = some e ∧ ∃ Ns, Keeps out.st ns Ns := by
      intro nb h4 h60
      have hsub : ∀ a ∈ liveOf { t.map with used := u } ns ++ [], a ∈ liveOf t.map ns := by
        intro a ha
        rw [List.append_nil] at ha
        exact ha
      obtain ⟨x, ex, hx⟩ := askRehash_ok (h q.2) ops (hm.mono hsub) fuel hf nb h4 h60
      rw [ex, Option.map_some]
      refine ⟨_, rfl, rfl, rfl, ?_⟩
      rcases hx with ⟨-, rfl⟩ | ⟨-, -, ⟨Ns', hN'⟩, -⟩
      · exact ⟨Bs, h q.2⟩
      · exact ⟨Ns', hN'⟩
    have hmod : (t.map.bits + 2 ^ 32 - 1) % 2 ^ 32 = t.map.bits - 1 := by omega
    simp only [askReduce, hmod]
    split
    · exact key' 4 (by omega) (by omega)
    · exact key' (t.map.bits - 1) (by omega) (by omega)
  · exact ⟨_, rfl, rfl, rfl, Bs, h q.2⟩

/-- One call on a map holding the nodes `ns`. -/
theorem ask_ok {κ : Type} {t : St} {ns : List Addr} {Bs : List (List Addr)} (h : Keeps t ns Bs)
    (ops : AnyOps κ) {malloc : Nat → Option Addr} {op : Op κ} (ho : Lent malloc t.map ns op) (fuel : Nat) (hf : ns.length < fuel) (hlen : ns.length + 1 < 2 ^ 64) :
    ∃ out, op.ask ops malloc fuel t = some out ∧ Possible ops (Refuses malloc) ns op out.code out.node ∧
      ∃ Ns, Keeps out.st (nodesAfter ns op out.code out.node) Ns := by
  have hm : Fresh malloc (liveOf t.map ns ++ op.fresh) := ho.malloc
  cases op with
  | release =>
    refine ⟨⟨{ t with map := release t.map, blocks := [] }, 0, none⟩, ?_, ⟨rfl, rfl⟩, [], ?_⟩
    · have := giveBack_table h.shape [] (fun x hx => absurd hx List.not_mem_nil)
      rw [List.nil_append, ← h.blocks] at this
      simp only [Op.ask, askRelease, this, Option.map_some]
    · exact ⟨Or.inl ⟨rfl, rfl, rfl⟩, rfl, ⟨fun _ h => absurd h List.not_mem_nil, List.nodup_nil⟩, List.Perm.refl _, rfl, Nat.two_pow_pos 64, rfl⟩
  | find key =>
    obtain ⟨r, e, hr⟩ := askBucket_ok h fuel hf (fun c walk => ops.find c walk key == 0) (t.calls + 1) (ops.hashKey t.calls key)
    refine ⟨_, by rw [Op.ask, askFind, e, Option.map_some], ⟨rfl, ?_⟩, Bs, h.calls _⟩
    rcases hr with h0 | ⟨h0, h1, c, h2⟩
    · exact Or.inr (if_pos h0)
    · exact Or.inl ⟨r.1, h1, ⟨c, by simpa using h2⟩, if_neg h0⟩
  | del key =>
    obtain ⟨r, e, hr⟩ := askBucket_ok h fuel hf (fun c walk => ops.find c walk key == 0) (t.calls + 1) (ops.hashKey t.calls key)
    rw [Op.ask, askDel]
    dsimp only
    rw [e, Option.bind_some]
    rcases hr with h0 | ⟨h0, h1, c, h2⟩
    · rw [if_pos h0]
      exact ⟨_, rfl, Or.inr ⟨rfl, rfl⟩, Bs, h.calls _⟩
    · rw [if_neg h0]
      generalize hu : (t.map.used + 2 ^ 64 - 1) % 2 ^ 64 = u
      obtain ⟨s', e', Ns, hN⟩ := askUnlink_ok h h1 u hu.symm
      rw [e', Option.bind_some]
      have hbits : 4 ≤ t.map.bits ∧ t.map.bits ≤ 59 := by
        rcases h.shape with ⟨-, hc, -⟩ | ⟨-, -, h1, h2⟩
        · have hB : Bs = [] := List.length_eq_zero_iff.1 (by rw [h.len, hc])
          have := h.perm.mem_iff.1 h1
          rw [hB] at this
          exact absurd this List.not_mem_nil
        · exact ⟨h1, h2⟩
      have hsub : ∀ a ∈ liveOf t.map (ns.filter fun x => some x ≠ some r.1), a ∈ liveOf t.map ns ++ Op.fresh (.del key) := by
        intro a ha
        rw [liveOf, List.mem_append] at ha
        refine List.mem_append_left _ ?_
        rw [liveOf, List.mem_append]
        rcases ha with ha | ha
        · exact Or.inl (List.mem_filter.1 ha).1
        · exact Or.inr ha
      obtain ⟨out, e2, e3, e4, Ns', hN'⟩ := askCut_ok (t := { t with calls := r.2 }) (e := r.1) hN ops (hm.mono hsub) hbits fuel
        (Nat.lt_of_le_of_lt (List.length_filter_le ..) hf)
      refine ⟨out, e2, ?_, Ns', ?_⟩
      · rw [e3, e4]; exact Or.inl ⟨r.1, h1, ⟨c, by simpa using h2⟩, rfl, rfl⟩
      · rw [e3, e4]; exact hN'
  | insert n key st =>
    obtain ⟨h0, hnl⟩ := ho.node n key st rfl
    have new : ∀ c v, ∃ out, askNew ops malloc fuel { t with calls := c } n st v = some out ∧ Possible ops (Refuses malloc) ns (.insert n key st) out.code out.node ∧
        ∃ Ns, Keeps out.st (nodesAfter ns (.insert n key st) out.code out.node) Ns := by
      intro c v
      obtain ⟨out, e, e1, e2⟩ := askNew_ok (h.calls c) ops hm h0 hnl fuel hf hlen st v
      refine ⟨out, e, Or.inr ⟨e1, ?_⟩, ?_⟩
      · rcases e2 with ⟨h1, -⟩ | ⟨h1, h2, -⟩
        · by_cases hst : st = .update
          · rw [if_pos hst] at h1 ⊢; exact h1
          · rw [if_neg hst] at h1 ⊢; exact Or.inr h1
        · rw [if_neg h1]; exact Or.inl h2
      · simp only [nodesAfter, e1]
        rcases e2 with ⟨h1, h2⟩ | ⟨-, h1, h2⟩
        · have hne : out.code ≠ 0 := by
            by_cases hst : st = .update
            · rw [if_pos hst] at h1; rw [h1]; decide
            · rw [if_neg hst] at h1; rw [h1.1]; decide
          rw [if_pos hne]; exact h2
        · rw [h1]; exact h2
    simp only [Op.ask, askInsert]
    by_cases ha : st = .append
    · rw [if_neg (by simp [ha])]
      exact new _ _
    · rw [if_pos ha]
      obtain ⟨r, e, hr⟩ := askBucket_ok h fuel hf (fun c walk => ops.equal c n walk == 0) (t.calls + 1) (ops.hashNode t.calls n)
      rw [e, Option.bind_some]
      rcases hr with r0 | ⟨r0, h1, c, h2⟩
      · rw [if_neg (by simp [r0])]
        exact new _ _
      · rw [if_pos r0]
        by_cases hadd : st = .add
        · rw [if_pos hadd]
          exact ⟨_, rfl, Or.inl ⟨r.1, h1, ⟨c, by simpa using h2⟩, rfl, ha, by rw [if_pos hadd]⟩, Bs, h.calls _⟩
        · rw [if_neg hadd]
          obtain ⟨s', e', Ns, hN⟩ := askReplace_ok (h.calls r.2) h1 h0 hnl
          dsimp only at e' hN ⊢
          rw [e', Option.map_some]
          exact ⟨_, rfl, Or.inl ⟨r.1, h1, ⟨c, by simpa using h2⟩, rfl, ha, by rw [if_neg hadd]⟩, Ns, hN⟩

theorem any_keeps {κ : Type} {t : St} {ns : List Addr} (h : AnyReach κ t ns) : ∃ Bs, Keeps t ns Bs := by
  induction h with
  | init => exact ⟨[], Or.inl ⟨rfl, rfl, rfl⟩, rfl, ⟨fun _ h => absurd h List.not_mem_nil, List.nodup_nil⟩, List.Perm.refl _, rfl, by simp, rfl⟩
  | @call t ns ops malloc fuel op out _ ho hf hlen hrun ih =>
    obtain ⟨Bs, hB⟩ := ih
    obtain ⟨out', e, -, Ns, hN⟩ := ask_ok hB ops ho fuel hf hlen
    rw [hrun, Option.some.injEq] at e
    rw [e]; exact ⟨Ns, hN⟩

/-! ### The theorems -/

/-- C116: after any history of calls, whatever the callbacks answered and answer and whatever the allocator refuses, the next call ends and
does nothing undefined; what it returns is a node of the map that the callback accepted, it fails with -ENOMEM only if the allocator
refused, and the nodes in the map are those inserted and not replaced, deleted or released since. -/
theorem any_calls {κ : Type} {t : St} {ns : List Addr} (h : AnyReach κ t ns) (ops : AnyOps κ) {malloc : Nat → Option Addr} {op : Op κ} (ho : Lent malloc t.map ns op)
    (fuel : Nat) (hf : ns.length < fuel) (hlen : ns.length + 1 < 2 ^ 64) :
    ∃ out, op.ask ops malloc fuel t = some out ∧ Possible ops (Refuses malloc) ns op out.code out.node ∧ AnyReach κ out.st (nodesAfter ns op out.code out.node) := by
  obtain ⟨Bs, hB⟩ := any_keeps h
  obtain ⟨out, e, hP, -⟩ := ask_ok hB ops ho fuel hf hlen
  exact ⟨out, e, hP, AnyReach.call h ho hf hlen e⟩

/-- C116: going through the map finds every one of its nodes exactly once, and the count is right, whatever the callbacks answered. -/
theorem any_iteration {κ : Type} {t : St} {ns : List Addr} (h : AnyReach κ t ns) (fuel : Nat) (hf : ns.length < fuel) :
    t.map.used = ns.length ∧ ∃ l, forEach fuel t.heap t.map = some l ∧ l.Perm ns ∧ l.Nodup := by
  obtain ⟨Bs, h⟩ := any_keeps h
  refine ⟨h.used, Bs.flatten, ?_, h.perm.symm, nodup_buckets h.world⟩
  rw [forEach]
  rcases h.shape with ⟨-, hc, -⟩ | ⟨-, hc, h4, h59⟩
  · have : Bs = [] := List.length_eq_zero_iff.1 (by rw [h.len, hc])
    rw [hc, this]; rfl
  · have hl : Bs.length = 2 ^ t.map.bits := by rw [h.len, hc]
    rw [hc]
    obtain ⟨x, e, ht⟩ := forN_inv (P := fun i x => x = (Bs.take i).flatten) (2 ^ t.map.bits)
      (fun index l => (masked t.map.buckets (2 ^ t.map.bits) index).bind fun head => (Hlist.forEach t.heap head fuel).map (l ++ ·)) [] rfl (fun i hi x hx => by
        have hi' : i < Bs.length := by omega
        obtain ⟨R, hp, -⟩ := rows_split t.map.buckets Bs i hi'
        have hch := h.world.chain _ (hp.mem_iff.2 (List.mem_cons_self ..))
        rw [masked_ok t.map.bits (by omega) _ i hi, Option.bind_some, Hlist.traversal hch fuel
          (Nat.lt_of_le_of_lt (bucket_len (List.getElem_mem hi')) (by rw [← h.perm.length_eq]; exact hf)), Option.map_some]
        refine ⟨_, rfl, ?_⟩
        rw [hx, List.take_add_one, List.getElem?_eq_getElem hi', Option.toList_some, List.flatten_append, List.flatten_singleton])
    rw [e, ht, List.take_of_length_le (by omega)]

/-- C116: the memory of a map is exactly one table of eight bytes for each of its buckets, whose number is zero or a power of two from
16 on; no earlier table is left over. -/
theorem any_memory {κ : Type} {t : St} {ns : List Addr} (h : AnyReach κ t ns) :
    (t.map.capacity = 0 ∧ t.map.buckets = 0 ∧ t.blocks = []) ∨
      (∃ b, 4 ≤ b ∧ b ≤ 59 ∧ t.map.capacity = 2 ^ b ∧ t.map.buckets ≠ 0 ∧ t.blocks = [(t.map.buckets, 8 * 2 ^ b)]) := by
  obtain ⟨Bs, h⟩ := any_keeps h
  have hb := h.blocks
  rw [tableOf] at hb
  rcases h.shape with ⟨h1, hc, -⟩ | ⟨h1, hc, h4, h59⟩
  · rw [if_pos hc] at hb; exact Or.inl ⟨hc, h1, hb⟩
  · rw [if_neg (by rw [hc]; simp), hc] at hb; exact Or.inr ⟨t.map.bits, h4, h59, hc, h1, hb⟩

/-- C116: releasing the map gives all memory back, and only once. -/
theorem any_release {κ : Type} {t : St} {ns : List Addr} (h : AnyReach κ t ns) :
    ∃ out, askRelease t = some out ∧ out.st.blocks = [] ∧ out.st.map = init ∧ out.st.heap = t.heap ∧
      ∃ out', askRelease out.st = some out' ∧ out'.st = out.st := by
  obtain ⟨Bs, h⟩ := any_keeps h
  have := giveBack_table h.shape [] (fun x hx => absurd hx List.not_mem_nil)
  rw [List.nil_append, ← h.blocks] at this
  refine ⟨⟨{ t with map := release t.map, blocks := [] }, 0, none⟩, by simp only [askRelease, this, Option.map_some], rfl, rfl, rfl, ?_⟩
  exact ⟨⟨{ t with map := release t.map, blocks := [] }, 0, none⟩, rfl, rfl⟩

/-! ### Callbacks that always answer the same -/

theorem askSearch_plain (s : Heap) (hit : Addr → Bool) (fuel : Nat) : ∀ c walk, (askSearch s (fun _ => hit) fuel c walk).map (·.1) = search s hit fuel walk := by
  induction fuel with
  | zero => intro c walk; rfl
  | succ f ih =>
    intro c walk
    rw [askSearch, search]
    split
    · rfl
    · split
      · rfl
      · exact ih _ _

theorem askBucket_plain {κ : Type} (ops : Ops κ) (fuel : Nat) (s : Heap) (m : Map) (c : Nat) (hash : BitVec 64) :
    (∀ node, (askBucket fuel s m (fun _ walk => ops.equal node walk == 0) c hash).map (·.1) = findNode ops fuel s m node hash) ∧
    (∀ key, (askBucket fuel s m (fun _ walk => ops.find walk key == 0) c hash).map (·.1) = findKey ops fuel s m key hash) := by
  constructor
  · intro node
    rw [askBucket, findNode]
    split
    · rfl
    · cases Bloom.hashtblIndex (BitVec.ofNat 64 m.capacity) hash with
      | none => rfl
      | some index =>
        simp only [Option.bind_some]
        cases masked m.buckets m.capacity index with
        | none => rfl
        | some head => exact askSearch_plain ..
  · intro key
    rw [askBucket, findKey]
    split
    · rfl
    · cases Bloom.hashtblIndex (BitVec.ofNat 64 m.capacity) hash with
      | none => rfl
      | some index =>
        simp only [Option.bind_some]
        cases masked m.buckets m.capacity index with
        | none => rfl
        | some head => exact askSearch_plain ..

theorem askDrain_plain {κ : Type} (ops : Ops κ) (nb nc fuel : Nat) : ∀ (x : Heap × Nat) (walk : Addr),
    (askDrain ops.any nb nc fuel x walk).map (·.1) = drain ops nb nc fuel x.1 walk := by
  induction fuel with
  | zero => intro x walk; rfl
  | succ f ih =>
    intro x walk
    rw [askDrain, drain]
    split
    · rfl
    · dsimp only
      cases Hlist.del x.1 walk with
      | none => rfl
      | some s1 =>
        simp only [Option.bind_some, Ops.any]
        cases tblAdd s1 nb nc walk (ops.hashNode walk) with
        | none => rfl
        | some s2 => exact ih (s2, x.2 + 1) _

theorem forN_map {α β : Type} (p : α → β) (g : Nat → α → Option α) (g' : Nat → β → Option β) (hg : ∀ i x, (g i x).map p = g' i (p x)) (n : Nat) (x : α) :
    (forN n g x).map p = forN n g' (p x) := by
  have : ∀ n, (forN n g x).map p = forN n g' (p x) := by
    intro n
    induction n with
    | zero => rfl
    | succ n ih =>
      rw [forN, forN, ← ih]
      cases forN n g x with
      | none => rfl
      | some y => exact hg n y
  exact this n

theorem askRehash_plain {κ : Type} (ops : Ops κ) (malloc : Nat → Option Addr) (fuel : Nat) (t : St) (nbits : Nat) (r : St × Int)
    (h : askRehash ops.any malloc fuel t nbits = some r) : rehash ops malloc fuel t.heap t.map nbits = some (r.1.heap, r.1.map, r.2) := by
  rw [askRehash] at h
  rw [rehash]
  split at h
  · exact absurd h (by simp)
  · next hn =>
    rw [if_neg hn]
    dsimp only at h ⊢
    cases hq : malloc (2 ^ nbits * 8 % 2 ^ 64) with
    | none =>
      rw [hq] at h
      simp only [Option.some.injEq] at h
      rw [← h]
    | some q =>
      rw [hq] at h
      dsimp only at h ⊢
      split at h
      · exact absurd h (by simp)
      · next hs =>
        rw [if_neg hs]
        cases hi : tblInit t.heap q (2 ^ nbits) with
        | none => rw [hi] at h; exact absurd h (by simp)
        | some s =>
          rw [hi, Option.bind_some] at h
          rw [Option.bind_some]
          have hm := forN_map (fun x : Heap × Nat => x.1)
            (fun index x => (masked t.map.buckets t.map.capacity index).bind fun head => askDrain ops.any q (2 ^ nbits) fuel x (x.1.next head))
            (fun index s => (masked t.map.buckets t.map.capacity index).bind fun head => drain ops q (2 ^ nbits) fuel s (s.next head))
            (fun i x => by
              cases masked t.map.buckets t.map.capacity i with
              | none => rfl
              | some head => exact askDrain_plain ops q (2 ^ nbits) fuel x _) t.map.capacity (s, t.calls)
          dsimp only at hm
          rw [← hm]
          obtain ⟨x, hx, h2⟩ := Option.bind_eq_some_iff.1 h
          obtain ⟨bl, -, h3⟩ := Option.map_eq_some_iff.1 h2
          rw [hx, Option.map_some, Option.map_some, ← h3]

/-- What `Verif.Hashmap.Model` sees of the outcome. -/
def AnyOut.out (o : AnyOut) : Out := ⟨o.st.heap, o.st.map, o.code, o.node⟩

theorem askTail_plain (t : St) (node : Addr) (v : BitVec 64) : (askTail t node v).map (·.out) = insertTail t.heap t.map node v := by
  rw [askTail, insertTail, Option.map_map]; rfl

theorem askExtend_plain {κ : Type} (ops : Ops κ) (m : Map) (c : Nat) : (askExtend ops.any m c).1 = needExtend ops m := by
  rw [askExtend, needExtend]
  split
  · rfl
  · simp only [Ops.any]
    cases ops.extend <;> rfl

theorem askShrink_plain {κ : Type} (ops : Ops κ) (m : Map) (c : Nat) : (askShrink ops.any m c).1 = needShrink ops m := by
  rw [askShrink, needShrink]
  simp only [Ops.any]
  cases ops.shrink <;> rfl

theorem askNew_plain {κ : Type} (ops : Ops κ) (malloc : Nat → Option Addr) (fuel : Nat) (t : St) (node : Addr) (st : Strategy) (out : AnyOut)
    (h : askNew ops.any malloc fuel t node st (ops.hashNode node) = some out) : insertNew ops malloc fuel t.heap t.map node st = some out.out := by
  rw [askNew] at h
  rw [insertNew]
  split at h
  · next hu => rw [if_pos hu]; simp only [Option.some.injEq] at h; rw [← h]; rfl
  · next hu =>
    rw [if_neg hu]
    dsimp only at h
    rw [askExtend_plain] at h
    split at h
    · next hx =>
      rw [if_pos hx]
      obtain ⟨r, hr, h2⟩ := Option.bind_eq_some_iff.1 h
      have hr' : extend ops malloc fuel t.heap t.map = some (r.1.heap, r.1.map, r.2) := askRehash_plain ops malloc fuel { t with calls := (askExtend ops.any t.map t.calls).2 } _ r hr
      rw [hr', Option.bind_some]
      split at h2
      · next hc => rw [if_pos hc]; simp only [Option.some.injEq] at h2; rw [← h2]; rfl
      · next hc =>
        rw [if_neg hc]
        have := askTail_plain { r.1 with calls := r.1.calls + 1 } node (ops.hashNode node)
        rw [show askTail { r.1 with calls := r.1.calls + 1 } node (ops.hashNode node) = some out from h2] at this
        exact this.symm
    · next hx =>
      rw [if_neg hx]
      have := askTail_plain { t with calls := (askExtend ops.any t.map t.calls).2 } node (ops.hashNode node)
      rw [h] at this
      exact this.symm

theorem askCut_plain {κ : Type} (ops : Ops κ) (malloc : Nat → Option Addr) (fuel : Nat) (t : St) (s : Heap) (u : Nat) (e : Addr) (out : AnyOut)
    (h : askCut ops.any malloc fuel t s u e = some out) :
    (if needShrink ops { t.map with used := u } then (shrink ops malloc fuel s { t.map with used := u }).map fun r => (⟨r.1, r.2.1, 0, some e⟩ : Out)
      else some ⟨s, { t.map with used := u }, 0, some e⟩) = some out.out := by
  rw [askCut] at h
  dsimp only at h
  rw [askShrink_plain] at h
  split at h
  · next hx =>
    rw [if_pos hx]
    obtain ⟨x, hx2, h4⟩ := Option.map_eq_some_iff.1 h
    have := askRehash_plain ops malloc fuel { t with heap := s, map := { t.map with used := u }, calls := (askShrink ops.any { t.map with used := u } t.calls).2 } _ x hx2
    have hs : shrink ops malloc fuel s { t.map with used := u } = some (x.1.heap, x.1.map, x.2) := this
    rw [hs, Option.map_some, ← h4]
    rfl
  · next hx => rw [if_neg hx]; simp only [Option.some.injEq] at h; rw [← h]; rfl

/-- C116: with callbacks that always answer the same, every call is that of `Verif.Hashmap.Model`. -/
theorem ask_plain {κ : Type} (ops : Ops κ) (malloc : Nat → Option Addr) (fuel : Nat) (t : St) (op : Op κ) (out : AnyOut)
    (h : op.ask ops.any malloc fuel t = some out) : op.run ops malloc fuel t.heap t.map = some out.out := by
  cases op with
  | release =>
    obtain ⟨bl, -, h2⟩ := Option.map_eq_some_iff.1 h
    rw [← h2]; rfl
  | find key =>
    obtain ⟨r, hr, h2⟩ := Option.map_eq_some_iff.1 h
    have := (askBucket_plain ops fuel t.heap t.map (t.calls + 1) (ops.hashKey key)).2 key
    rw [show askBucket fuel t.heap t.map (fun _ walk => ops.find walk key == 0) (t.calls + 1) (ops.hashKey key) = some r from hr, Option.map_some] at this
    rw [Op.run, find, ← this, ← h2]
    rfl
  | del key =>
    obtain ⟨r, hr, h2⟩ := Option.bind_eq_some_iff.1 h
    have := (askBucket_plain ops fuel t.heap t.map (t.calls + 1) (ops.hashKey key)).2 key
    rw [show askBucket fuel t.heap t.map (fun _ walk => ops.find walk key == 0) (t.calls + 1) (ops.hashKey key) = some r from hr, Option.map_some] at this
    rw [Op.run, del, ← this, Option.bind_some]
    dsimp only at h2
    split at h2
    · next h0 => rw [if_pos h0]; simp only [Option.some.injEq] at h2; rw [← h2]; rfl
    · next h0 =>
      rw [if_neg h0]
      obtain ⟨s, hs, h3⟩ := Option.bind_eq_some_iff.1 h2
      rw [hs, Option.bind_some]
      dsimp only at h3 ⊢
      generalize (t.map.used + 2 ^ 64 - 1) % 2 ^ 64 = u at h3 ⊢
      exact askCut_plain ops malloc fuel { t with calls := r.2 } s u r.1 out h3
  | insert node key st =>
    simp only [Op.ask, askInsert] at h
    simp only [Op.run, insert]
    split at h
    · next hst =>
      rw [if_pos hst]
      obtain ⟨r, hr, h2⟩ := Option.bind_eq_some_iff.1 h
      have := (askBucket_plain ops fuel t.heap t.map (t.calls + 1) (ops.hashNode node)).1 node
      rw [show askBucket fuel t.heap t.map (fun _ walk => ops.equal node walk == 0) (t.calls + 1) (ops.hashNode node) = some r from hr, Option.map_some] at this
      rw [← this, Option.bind_some]
      split at h2
      · next h0 =>
        rw [if_pos h0]
        split at h2
        · next ha => rw [if_pos ha]; simp only [Option.some.injEq] at h2; rw [← h2]; rfl
        · next ha =>
          rw [if_neg ha]
          obtain ⟨s, hs, h3⟩ := Option.map_eq_some_iff.1 h2
          rw [hs, Option.map_some, ← h3]
          rfl
      · next h0 =>
        rw [if_neg h0]
        exact askNew_plain ops malloc fuel { t with calls := r.2 } node st out h2
    · next hst =>
      rw [if_neg hst]
      exact askNew_plain ops malloc fuel { t with calls := t.calls + 1 } node st out h

/-! A concrete case: the hash of a node is another one each time it is asked for, and any two nodes are equal every third time. -/

def wildOps : AnyOps Nat where
  hashKey c k := BitVec.ofNat 64 (c * k)
  hashNode c n := BitVec.ofNat 64 (c * 7 + n)
  equal c _ _ := if c % 3 = 0 then 0 else 1
  find c n k := if c % 2 = 0 ∧ n = 16 * k then 0 else 1
  extend := some fun c _ => c % 2 == 1
  shrink := some fun c _ => c % 2 == 1

theorem wildLent (n k : Nat) (st : Strategy) (hn : 0 < n ∧ n < 4096) : Lent exMalloc init [] (.insert n k st) := by
  refine ⟨?_, ?_⟩
  · intro n' k' st' e
    cases e
    exact ⟨Nat.pos_iff_ne_zero.1 hn.1, by simp [liveOf, init]⟩
  · intro bytes q e
    rw [exMalloc] at e
    split at e
    · next hb =>
      simp only [Option.some.injEq] at e
      subst e hb
      refine ⟨by decide, by decide, fun a ha => ?_⟩
      simp only [liveOf, init, Op.fresh, List.map_nil, List.range_zero, List.nil_append, List.mem_singleton] at ha
      rw [ha]
      exact Or.inl hn.2
    · simp at e

/-- Run calls one after the other, each with its own allocator. -/
def askAll (ops : AnyOps Nat) : List ((Nat → Option Addr) × Op Nat) → St → Option (St × List (Int × Option Addr))
  | [], t => some (t, [])
  | (f, op) :: l, t => (op.ask ops f 20 t).bind fun o => (askAll ops l o.st).map fun r => (r.1, (o.code, o.node) :: r.2)

def wildRun : Option (St × List (Int × Option Addr)) :=
  askAll wildOps [(exMalloc, .insert 48 3 .add), (fun _ => some 8192, .insert 64 4 .add), (fun _ => some 16384, .insert 80 5 .add), (fun _ => none, .insert 96 6 .append),
    (fun _ => some 32768, .insert 112 7 .append), (fun _ => none, .find 3), (fun _ => none, .find 4), (fun _ => none, .find 5)] ⟨⟨fun _ => 0, fun _ => 0⟩, init, [], 0⟩

/-- A map with one node is reached. -/
example : ∃ t, AnyReach Nat t [48] ∧ t.blocks = [(4096, 128)] ∧ t.map.used = 1 := by
  have hr : ∃ out, Op.ask wildOps exMalloc 5 ⟨⟨fun _ => 0, fun _ => 0⟩, init, [], 0⟩ (.insert 48 3 .add) = some out ∧ out.code = 0 ∧ out.node = none ∧
      out.st.blocks = [(4096, 128)] ∧ out.st.map.used = 1 := by
    refine ⟨(Op.ask wildOps exMalloc 5 ⟨⟨fun _ => 0, fun _ => 0⟩, init, [], 0⟩ (.insert 48 3 .add)).get (by decide +kernel), (Option.some_get _).symm, ?_⟩
    decide +kernel
  obtain ⟨out, e, hc, hn, rest⟩ := hr
  have := AnyReach.call AnyReach.init (wildLent 48 3 .add (by omega)) (fuel := 5) (by decide) (by simp) e
  rw [hc, hn] at this
  exact ⟨out.st, this, rest⟩

/-- Five nodes inserted, one of them when the table grew, are all there although no key is found any more. -/
theorem wild_demo : wildRun.map (fun r => (r.2, r.1.blocks, r.1.map.used, forEach 20 r.1.heap r.1.map)) =
    some ([(0, none), (0, none), (0, none), (0, none), (0, none), (0, none), (0, none), (0, none)], [(16384, 512)], 5, some [96, 80, 64, 112, 48]) := by
  decide +kernel

end Bfdev.Hashmap

import Verif.Hashmap.Props
/-!
C101: removing entries from a hash map inside its removal-safe iteration.
-/
namespace Bfdev.Hashmap
open Bfdev.Dlist (Addr Heap)
open Bfdev.Hlist (World Chain)

/-- The inner loop of `bfdev_hashmap_for_each_safe`, hlist.h:318-320: the body may change memory and the map. -/
def chainSafe (body : Heap → Map → Addr → Option (Heap × Map)) : Nat → Heap → Map → Addr → Addr → Option (List Addr × Heap × Map)
  | 0, _, _, _, _ => none
  | fuel + 1, s, m, pos, tmp =>
    if pos = 0 then some ([], s, m)
    else (body s m pos).bind fun r =>
      (chainSafe body fuel r.1 r.2 tmp (if tmp = 0 then tmp else r.1.next tmp)).map fun q => (pos :: q.1, q.2)

/-- `bfdev_hashmap_for_each_safe`, hashmap.h:163-165 and hashtbl.h:166-168 (and the `_entry` forms), from `index` on, collecting the cursors. The macro reads
the bucket array and the capacity out of the map again for every index. The value of `tmp` under a NULL cursor is never used. -/
def forEachSafe (body : Heap → Map → Addr → Option (Heap × Map)) (fuel : Nat) : Nat → Nat → Heap → Map → Option (List Addr × Heap × Map)
  | 0, _, _, _ => none
  | n + 1, index, s, m =>
    if index < m.capacity then
      (masked m.buckets m.capacity index).bind fun head =>
        (chainSafe body fuel s m (s.next head) (s.next (s.next head))).bind fun r =>
          (forEachSafe body fuel n (index + 1) r.2.1 r.2.2).map fun q => (r.1 ++ q.1, q.2)
    else some ([], s, m)

/-- A loop body that calls `bfdev_hashmap_del` with the key of the entries it does not keep. The allocator may answer differently in every call; `malloc u`
is its behaviour while there are `u` entries. -/
def purge {κ : Type} (ops : Ops κ) (malloc : Nat → Nat → Option Addr) (keyOf : Addr → κ) (keep : Addr → Bool) (fuel : Nat) (s : Heap) (m : Map) (x : Addr) :
    Option (Heap × Map) :=
  if keep x then some (s, m) else (del ops (malloc m.used) fuel s m (keyOf x)).map fun o => (o.heap, o.map)

/-! ## Proofs -/

theorem chain_step {s : Heap} {x : Addr} {q : List Addr} : ∀ {p : List Addr} {a : Addr}, Chain s a (p ++ x :: q) → x ≠ 0 ∧ s.next x = q.headD 0
  | [], _, h => ⟨h.2.1, chain_head h.2.2.2⟩
  | _ :: _, _, h => chain_step h.2.2.2

/-- The state in the middle of an iteration started on `m0` with the entries `M0`. -/
structure Mid {κ : Type} (hash : κ → BitVec 64) (keep : Addr → Bool) (m0 : Map) (M0 : List (Addr × κ)) (s : Heap) (m : Map) (M : List (Addr × κ))
    (Bs : List (List Addr)) : Prop where
  holds : Holds hash s m M Bs
  reach : Reach hash NoAppend s m M
  map : m = { m0 with used := M.length }
  kept : M.filter (fun p => keep p.1) = M0.filter fun p => keep p.1
  sub : M.Sublist M0

theorem owed_mono {κ : Type} {hash : κ → BitVec 64} {ops : Ops κ} {malloc : Nat → Option Addr} {m0 m : Map} {M0 M : List (Addr × κ)} {k : κ}
    (h : Owed hash ops malloc m0 M0 (.del k)) (hm : ∃ u, m = { m0 with used := u }) (hs : M.Sublist M0) : Owed hash ops malloc m M (.del k) := by
  obtain ⟨u, rfl⟩ := hm
  refine ⟨h.hashKey, fun n k hk => h.hashNode n k (hs.mem hk), fun n k hk => h.find n k (hs.mem hk), fun n key st e => (by cases e), fun bytes q e => ?_⟩
  obtain ⟨h1, h2, h3⟩ := h.malloc bytes q e
  refine ⟨h1, h2, fun a ha => h3 a ?_⟩
  simp only [live, List.mem_append] at ha ⊢
  rcases ha with (ha | ha) | ha
  · exact Or.inl (Or.inl ((hs.map _).mem ha))
  · exact Or.inl (Or.inr ha)
  · exact Or.inr ha

section
variable {κ : Type} [DecidableEq κ] {hash : κ → BitVec 64} {ops : Ops κ} {malloc : Nat → Nat → Option Addr} {keyOf : Addr → κ} {keep : Addr → Bool}
  {m0 : Map} {M0 : List (Addr × κ)} {fuel : Nat}

theorem purge_step (ho : ∀ u k, Owed hash ops (malloc u) m0 M0 (.del k)) (hk : ∀ n k, (n, k) ∈ M0 → keyOf n = k)
    (stay : ∀ u, (M0.filter fun p => keep p.1).length ≤ u → u < M0.length → needShrink ops { m0 with used := u } = false ∨ ∀ bytes, malloc (u + 1) bytes = none)
    (hf : M0.length < fuel) (hlen : M0.length + 1 < 2 ^ 64) {s : Heap} {m : Map} {M : List (Addr × κ)} {Bs : List (List Addr)}
    (h : Mid hash keep m0 M0 s m M Bs) {i : Nat} {l r : List Addr} {x : Addr} (hB : Bs[i]? = some (l ++ x :: r)) :
    ∃ s' m' M', purge ops malloc keyOf keep fuel s m x = some (s', m') ∧ Mid hash keep m0 M0 s' m' M' (Bs.set i (l ++ (if keep x then [x] else []) ++ r)) := by
  cases hkx : keep x with
  | true =>
    refine ⟨s, m, M, by simp [purge, hkx], ?_⟩
    have hi := (List.getElem?_eq_some_iff.1 hB)
    have : Bs.set i (l ++ [x] ++ r) = Bs := by
      have e : l ++ [x] ++ r = Bs[i]'hi.1 := by rw [hi.2]; simp
      rw [e, List.set_getElem_self]
    simp only [if_true]
    rw [this]
    exact h
  | false =>
    obtain ⟨k, hxk⟩ := h.holds.node_mem hB (n := x) (by simp)
    have hkey : keyOf x = k := hk x k (h.sub.mem hxk)
    have hO := owed_mono (ho m.used k) ⟨_, h.map⟩ h.sub
    have hle := h.sub.length_le
    have hb : m.buckets ≠ 0 := by
      rcases h.holds.shape with ⟨-, h1, -⟩ | ⟨h1, -⟩
      · have := (List.getElem?_eq_some_iff.1 hB).1
        rw [h.holds.len, h1] at this
        omega
      · exact h1
    obtain ⟨e, e1, e2⟩ := searchBucket h.holds fuel (by omega) k (fun n => ops.find n k == 0) (fun n k' hk' => by
      rw [beq_iff_eq, hO.find n k' hk' k]; exact eq_comm) hb
    have hfind : findKey ops fuel s m k (ops.hashKey k) = some e := by
      rw [hO.hashKey, findKey, if_neg hb]; exact e1
    obtain ⟨e0, hek⟩ : e ≠ 0 ∧ (e, k) ∈ M := by
      rcases e2 with h1 | ⟨-, h1⟩
      · exact h1
      · exact absurd hxk (h1 x)
    have hex : e = x := by
      have := assoc_iff (reach_unique h.reach) k
      have a := (this e).2 hek
      have b := (this x).2 hxk
      rw [a] at b
      exact Option.some.inj b
    subst hex
    obtain ⟨u, hu⟩ : ∃ u, u = (m.used + 2 ^ 64 - 1) % 2 ^ 64 := ⟨_, rfl⟩
    obtain ⟨s', d1, d2⟩ := delInit_at h.holds hB u (by rw [hu, h.holds.used])
    have hused : (M.filter fun p => some p.1 ≠ some e).length = u := d2.used.symm
    have hu1 : (M.filter fun p => some p.1 ≠ some e).length + 1 = M.length := by
      have := h.holds.used
      have := h.holds.small
      have hpos : 0 < M.length := List.length_pos_of_mem hxk
      omega
    have hkept : (M.filter fun p => some p.1 ≠ some e).filter (fun p => keep p.1) = M0.filter fun p => keep p.1 := by
      rw [← h.kept, List.filter_filter]
      apply List.filter_congr
      intro p _
      by_cases hp : p.1 = e
      · rw [hp, hkx]; simp
      · simp [hp]
    have hge : (M0.filter fun p => keep p.1).length ≤ (M.filter fun p => some p.1 ≠ some e).length := by
      rw [← hkept]; exact List.length_filter_le ..
    have hst := stay _ hge (by omega)
    have hout : del ops (malloc m.used) fuel s m k = some ⟨s', { m with used := u }, 0, some e⟩ := by
      rw [del, hfind, Option.bind_some, if_neg e0, d1, Option.bind_some]
      simp only [← hu]
      split
      · next hs =>
        rcases hst with hst | hst
        · have hm : ({ m with used := u } : Map) = { m0 with used := (M.filter fun p => some p.1 ≠ some e).length } := by
            rw [hused, h.map]
          rw [hm, hst] at hs
          cases hs
        · have hmu : m.used = (M.filter fun p => some p.1 ≠ some e).length + 1 := by rw [hu1]; exact h.holds.used
          have hbits : m.bits ≤ 59 ∧ 4 ≤ m.bits := by
            rcases h.holds.shape with ⟨h1, -⟩ | ⟨-, -, h1, h2⟩
            · exact absurd h1 hb
            · exact ⟨h2, h1⟩
          rw [← hmu] at hst
          have hmod : (m.bits + 2 ^ 32 - 1) % 2 ^ 32 = m.bits - 1 := by omega
          have key : ∀ nb, nb ≤ 60 → rehash ops (malloc m.used) fuel s' { m with used := u } nb =
              some (s', { m with used := u }, -12) := by
            intro nb h60
            rw [rehash, if_neg (by omega)]
            simp only [hst]
          simp only [shrink, hmod]
          split
          · rw [key 4 (by omega), Option.map_some]
          · rw [key (m.bits - 1) (by omega), Option.map_some]
      · rfl
    refine ⟨s', { m with used := u }, M.filter fun p => some p.1 ≠ some e, ?_, ?_⟩
    · rw [purge, hkx, if_neg (by decide), hkey, hout, Option.map_some]
    · refine ⟨by simpa using d2, ?_, ?_, hkept, List.filter_sublist.trans h.sub⟩
      · have hrun : Op.run ops (malloc m.used) fuel s m (.del k) = some ⟨s', { m with used := u }, 0, some e⟩ := hout
        exact Reach.call (P := NoAppend) (op := .del k) h.reach trivial hO (by omega) (by omega) hrun
      · rw [hused, h.map]

theorem chain_ok (ho : ∀ u k, Owed hash ops (malloc u) m0 M0 (.del k)) (hk : ∀ n k, (n, k) ∈ M0 → keyOf n = k)
    (stay : ∀ u, (M0.filter fun p => keep p.1).length ≤ u → u < M0.length → needShrink ops { m0 with used := u } = false ∨ ∀ bytes, malloc (u + 1) bytes = none)
    (hf : M0.length < fuel) (hlen : M0.length + 1 < 2 ^ 64) {i : Nat} : ∀ (q p : List Addr) {s : Heap} {m : Map} {M : List (Addr × κ)} {Bs : List (List Addr)} {tmp : Addr} (f : Nat),
    Mid hash keep m0 M0 s m M Bs → Bs[i]? = some (p ++ q) → (q ≠ [] → tmp = s.next (q.headD 0)) → q.length < f →
    ∃ s' m' M', chainSafe (purge ops malloc keyOf keep fuel) f s m (q.headD 0) tmp = some (q, s', m') ∧
      Mid hash keep m0 M0 s' m' M' (Bs.set i (p ++ q.filter keep))
  | [], p, s, m, M, Bs, tmp, f, h, hB, _, hq => by
    obtain ⟨f, rfl⟩ : ∃ g, f = g + 1 := ⟨f - 1, by simp at hq; omega⟩
    refine ⟨s, m, M, by simp [chainSafe], ?_⟩
    have hi := List.getElem?_eq_some_iff.1 hB
    have : Bs.set i (p ++ ([] : List Addr).filter keep) = Bs := by
      have e : p ++ ([] : List Addr).filter keep = Bs[i]'hi.1 := by rw [hi.2]; simp
      rw [e, List.set_getElem_self]
    rw [this]
    exact h
  | x :: q, p, s, m, M, Bs, tmp, f, h, hB, ht, hq => by
    obtain ⟨f, rfl⟩ : ∃ g, f = g + 1 := ⟨f - 1, by simp at hq; omega⟩
    have hi := List.getElem?_eq_some_iff.1 hB
    obtain ⟨R, hp, -⟩ := rows_split m.buckets Bs i hi.1
    have hch := h.holds.world.chain _ (hp.mem_iff.2 (List.mem_cons_self ..))
    rw [hi.2] at hch
    obtain ⟨hx0, hnx⟩ := chain_step hch.2
    have htmp : tmp = q.headD 0 := by rw [ht (by simp), List.headD_cons, hnx]
    obtain ⟨s1, m1, M1, e1, h1⟩ := purge_step ho hk stay hf hlen h hB
    have hB1 : (Bs.set i (p ++ (if keep x then [x] else []) ++ q))[i]? = some ((p ++ if keep x then [x] else []) ++ q) := by
      rw [List.getElem?_set_self hi.1]
    have ht' : q ≠ [] → (if tmp = 0 then tmp else s1.next tmp) = s1.next (q.headD 0) := by
      intro hne
      cases q with
      | nil => exact absurd rfl hne
      | cons y q =>
        obtain ⟨R1, hp1, -⟩ := rows_split m1.buckets _ i (List.getElem?_eq_some_iff.1 hB1).1
        have hch1 := h1.holds.world.chain _ (hp1.mem_iff.2 (List.mem_cons_self ..))
        rw [(List.getElem?_eq_some_iff.1 hB1).2] at hch1
        have hy := (chain_step hch1.2).1
        rw [htmp, List.headD_cons, if_neg hy]
    obtain ⟨s2, m2, M2, e2, h2⟩ := chain_ok ho hk stay hf hlen q (p ++ if keep x then [x] else []) (tmp := if tmp = 0 then tmp else s1.next tmp) f h1 hB1 ht' (by simpa using hq)
    refine ⟨s2, m2, M2, ?_, ?_⟩
    · rw [chainSafe, List.headD_cons, if_neg hx0, e1, Option.bind_some]
      dsimp only
      rw [htmp] at e2 ⊢
      rw [e2, Option.map_some]
    · rw [List.set_set] at h2
      have : p ++ (x :: q).filter keep = (p ++ if keep x then [x] else []) ++ q.filter keep := by
        cases hkx : keep x <;> simp [hkx]
      rw [this]
      exact h2

theorem table_ok (ho : ∀ u k, Owed hash ops (malloc u) m0 M0 (.del k)) (hk : ∀ n k, (n, k) ∈ M0 → keyOf n = k)
    (stay : ∀ u, (M0.filter fun p => keep p.1).length ≤ u → u < M0.length → needShrink ops { m0 with used := u } = false ∨ ∀ bytes, malloc (u + 1) bytes = none)
    (hf : M0.length < fuel) (hlen : M0.length + 1 < 2 ^ 64) (hs : Shape m0) : ∀ (R P : List (List Addr)) {s : Heap} {m : Map} {M : List (Addr × κ)} (n : Nat),
    Mid hash keep m0 M0 s m M (P ++ R) → R.length < n →
    ∃ s' m' M', forEachSafe (purge ops malloc keyOf keep fuel) fuel n P.length s m = some (R.flatten, s', m') ∧
      Mid hash keep m0 M0 s' m' M' (P ++ R.map (·.filter keep))
  | [], P, s, m, M, n, h, hn => by
    obtain ⟨n, rfl⟩ : ∃ g, n = g + 1 := ⟨n - 1, by simp at hn; omega⟩
    refine ⟨s, m, M, ?_, by simpa using h⟩
    have := h.holds.len
    simp only [List.append_nil] at this
    rw [forEachSafe, if_neg (by omega)]
    rfl
  | B :: R, P, s, m, M, n, h, hn => by
    obtain ⟨n, rfl⟩ : ∃ g, n = g + 1 := ⟨n - 1, by simp at hn; omega⟩
    have hl := h.holds.len
    have hlt : P.length < m.capacity := by rw [← hl]; simp
    have hcap : m.capacity = 2 ^ m.bits ∧ m.bits ≤ 59 := by
      rcases h.holds.shape with ⟨-, h1, -⟩ | ⟨-, h1, -, h2⟩
      · omega
      · exact ⟨h1, h2⟩
    have hB : (P ++ B :: R)[P.length]? = some ([] ++ B) := by simp
    obtain ⟨R1, hp, -⟩ := rows_split m.buckets _ P.length (List.getElem?_eq_some_iff.1 hB).1
    have hch := h.holds.world.chain _ (hp.mem_iff.2 (List.mem_cons_self ..))
    rw [(List.getElem?_eq_some_iff.1 hB).2] at hch
    have hd : s.next (m.buckets + 8 * P.length) = B.headD 0 := by
      have := chain_head hch.2
      simpa using this
    have hBl : B.length ≤ M0.length := by
      have a := bucket_len (Bs := P ++ B :: R) (B := B) (by simp)
      have b := h.holds.flatten_len
      have c := h.sub.length_le
      omega
    obtain ⟨s1, m1, M1, e1, h1⟩ := chain_ok ho hk stay hf hlen B [] (tmp := s.next (B.headD 0)) fuel h hB (fun _ => rfl) (by omega)
    have hset : (P ++ B :: R).set P.length ([] ++ B.filter keep) = (P ++ [B.filter keep]) ++ R := by
      rw [List.set_append_right _ _ (Nat.le_refl _)]
      simp
    rw [hset] at h1
    obtain ⟨s2, m2, M2, e2, h2⟩ := table_ok ho hk stay hf hlen hs R (P ++ [B.filter keep]) n h1 (by simpa using hn)
    refine ⟨s2, m2, M2, ?_, by simpa using h2⟩
    have hmk : masked m.buckets m.capacity P.length = some (m.buckets + 8 * P.length) := by
      rw [hcap.1]
      exact masked_ok m.bits (by omega) _ _ (by rw [← hcap.1]; exact hlt)
    rw [forEachSafe, if_pos hlt, hmk, Option.bind_some, hd, e1, Option.bind_some]
    dsimp only
    rw [List.length_append, List.length_singleton] at e2
    rw [e2, Option.map_some]
    rfl

/-- C101 under the guard that no deletion makes the map smaller (the shrink test says no, or the allocator refuses). After any history without duplicate
keys, whatever entries the loop body deletes by their keys: the removal-safe iteration ends, its cursors are those of the plain iteration, which is every
entry exactly once, and the map then holds the entries that were kept. What is missing: deletions that shrink, see `removal_violated`. -/
theorem removal_partial {s : Heap} {m : Map} {M : List (Addr × κ)} (h : Reach hash NoAppend s m M) (ho : ∀ u k, Owed hash ops (malloc u) m M (.del k))
    (hk : ∀ n k, (n, k) ∈ M → keyOf n = k)
    (stay : ∀ u, (M.filter fun p => keep p.1).length ≤ u → u < M.length → needShrink ops { m with used := u } = false ∨ ∀ bytes, malloc (u + 1) bytes = none)
    (hf : M.length < fuel) (hlen : M.length + 1 < 2 ^ 64) (n : Nat) (hn : m.capacity < n) :
    ∃ l s' m', forEachSafe (purge ops malloc keyOf keep fuel) fuel n 0 s m = some (l, s', m') ∧ forEach fuel s m = some l ∧ l.Perm (M.map (·.1)) ∧ l.Nodup ∧
      Reach hash NoAppend s' m' (M.filter fun p => keep p.1) := by
  obtain ⟨Bs, hB⟩ := reach_holds h
  have hmid : Mid hash keep m M s m M ([] ++ Bs) := ⟨hB, h, by rw [← hB.used], rfl, List.Sublist.refl _⟩
  obtain ⟨s', m', M', e, h'⟩ := table_ok ho hk stay hf hlen hB.shape Bs [] n hmid (by rw [hB.len]; exact hn)
  refine ⟨Bs.flatten, s', m', e, each_flatten hB hf, hB.perm.symm, nodup_buckets hB.world, ?_⟩
  have hM : M' = M.filter fun p => keep p.1 := by
    rw [← h'.kept]
    symm
    apply List.filter_eq_self.2
    intro p hp
    have := h'.holds.perm.mem_iff.1 (List.mem_map_of_mem hp (f := (·.1)))
    rw [List.nil_append, List.mem_flatten] at this
    obtain ⟨L, hL, hpL⟩ := this
    obtain ⟨B, -, rfl⟩ := List.mem_map.1 hL
    exact (List.mem_filter.1 hpL).2
  rw [← hM]
  exact h'.reach

end

/-- The map of the examples with the entries 16, 32, 48, all in one bucket, the last one first. -/
def exThree : Option (Heap × Map) :=
  forN 3 (fun i s => (insert exOps (if i = 0 then exMalloc else fun _ => none) 9 s.1 s.2 (16 * (i + 1)) .add).map fun o => (o.heap, o.map))
    (⟨fun _ => 0, fun _ => 0⟩, init)

theorem exOwed_del (malloc : Nat → Option Addr) (m : Map) (M : List (Addr × Nat)) (hM : ∀ p ∈ M, p.1 = 16 * p.2) (k : Nat)
    (hm : ∀ bytes q, malloc bytes = some q → q ≠ 0 ∧ bytes < 2 ^ 63 ∧ ∀ a ∈ live m M, a < q ∨ q + bytes ≤ a) : Owed (fun _ : Nat => 7) exOps malloc m M (.del k) :=
  ⟨fun _ => rfl, fun _ _ _ => rfl, fun n k h k' => by have := hM _ h; dsimp only at this; subst this; simp only [exOps]; omega, fun _ _ _ e => (by cases e),
    fun b q e => by have := hm b q e; simpa [Op.fresh] using this⟩

theorem exOwed_insert (m : Map) (M : List (Addr × Nat)) (hM : ∀ p ∈ M, p.1 = 16 * p.2) (n k : Nat) (hn : n = 16 * k) (hk : 1 ≤ k) (hl : n ∉ live m M) :
    Owed (fun _ : Nat => 7) exOps (fun _ => none) m M (.insert n k .add) := by
  refine ⟨fun _ => rfl, fun _ _ _ => rfl, fun n k h k' => by have := hM _ h; dsimp only at this; subst this; simp only [exOps]; omega, fun n' k' st e => ?_,
    fun _ _ e => (by cases e)⟩
  cases e
  have h0 : n ≠ 0 := by subst hn; exact Nat.mul_ne_zero (by decide) (by exact Nat.one_le_iff_ne_zero.1 hk)
  refine ⟨h0, hl, rfl, fun e k' h => ?_⟩
  have := hM _ h
  dsimp only at this
  subst this hn
  simp only [exOps]
  omega

theorem exThree_reach : ∃ s m, exThree = some (s, m) ∧ m.buckets = 4096 ∧ m.capacity = 16 ∧ Reach (fun _ : Nat => 7) NoAppend s m [(48, 3), (32, 2), (16, 1)] := by
  obtain ⟨o1, e1, c1⟩ : ∃ o, Op.run exOps exMalloc 9 ⟨fun _ => 0, fun _ => 0⟩ init (.insert 16 1 .add) = some o ∧ o.code = 0 ∧ o.node = none ∧
      o.map.buckets = 4096 ∧ o.map.capacity = 16 ∧
      ∃ o2, Op.run exOps (fun _ => none) 9 o.heap o.map (.insert 32 2 .add) = some o2 ∧ o2.code = 0 ∧ o2.node = none ∧ o2.map.buckets = 4096 ∧ o2.map.capacity = 16 ∧
      ∃ o3, Op.run exOps (fun _ => none) 9 o2.heap o2.map (.insert 48 3 .add) = some o3 ∧ o3.code = 0 ∧ o3.node = none ∧ o3.map.buckets = 4096 ∧ o3.map.capacity = 16 := by
    refine ⟨_, rfl, by decide +kernel, by decide +kernel, by decide +kernel, by decide +kernel, _, rfl, by decide +kernel, by decide +kernel, by decide +kernel, by decide +kernel, _, rfl, by decide +kernel,
      by decide +kernel, by decide +kernel, by decide +kernel⟩
  obtain ⟨c1, n1, b1, k1, o2, e2, c2, n2, b2, k2, o3, e3, c3, n3, b3, k3⟩ := c1
  have r1 := Reach.call (P := NoAppend) Reach.init (by simp [NoAppend]) (exOwed 16 1 .add rfl (by omega)) (fuel := 9) (by decide) (by simp) e1
  rw [c1, n1] at r1
  have r2 := Reach.call (P := NoAppend) r1 (by simp [NoAppend]) (exOwed_insert o1.map [(16, 1)] (by decide) 32 2 rfl (by omega) (by
    simp only [live, b1, k1]; decide)) (fuel := 9) (by decide) (by decide) e2
  rw [c2, n2] at r2
  have r3 := Reach.call (P := NoAppend) r2 (by simp [NoAppend]) (exOwed_insert o2.map [(32, 2), (16, 1)] (by decide) 48 3 rfl (by omega) (by
    simp only [live, b2, k2]; decide)) (fuel := 9) (by decide) (by decide) e3
  rw [c3, n3] at r3
  refine ⟨o3.heap, o3.map, ?_, b3, k3, r3⟩
  have e1' : insert exOps exMalloc 9 ⟨fun _ => 0, fun _ => 0⟩ init 16 .add = some o1 := e1
  have e2' : insert exOps (fun _ => none) 9 o1.heap o1.map 32 .add = some o2 := e2
  have e3' : insert exOps (fun _ => none) 9 o2.heap o2.map 48 .add = some o3 := e3
  simp [exThree, forN, e1', e2', e3']

/-- C101 fails: deleting every entry inside the removal-safe iteration. Three entries share a bucket; the first deletion leaves fewer than a quarter of the
minimum of sixteen buckets in use, so the buckets are rebuilt, which reverses the chain under the cursor. The third entry is never visited and is still in the
map afterwards. -/
theorem removal_violated : ∃ s m, Reach (fun _ : Nat => 7) NoAppend s m [(48, 3), (32, 2), (16, 1)] ∧ forEach 9 s m = some [48, 32, 16] ∧
    ∃ s' m', forEachSafe (purge exOps (fun u _ => some (4096 * (u + 1))) (· / 16) (fun _ => false) 9) 9 40 0 s m = some ([48, 32], s', m') ∧
      m'.used = 1 ∧ find exOps 9 s' m' 1 = some 16 := by
  obtain ⟨s, m, e, -, -, r⟩ := exThree_reach
  have c1 : exThree.bind (fun x => forEach 9 x.1 x.2) = some [48, 32, 16] := by decide +kernel
  have c2 : exThree.bind (fun x => (forEachSafe (purge exOps (fun u _ => some (4096 * (u + 1))) (· / 16) (fun _ => false) 9) 9 40 0 x.1 x.2).map fun y =>
      (y.1, y.2.2.used, find exOps 9 y.2.1 y.2.2 1)) = some ([48, 32], 1, some 16) := by decide +kernel
  rw [e, Option.bind_some] at c1 c2
  obtain ⟨⟨l, s', m'⟩, h1, h2⟩ := Option.map_eq_some_iff.1 c2
  simp only [Prod.mk.injEq] at h2
  obtain ⟨rfl, h3, h4⟩ := h2
  exact ⟨s, m, r, c1, s', m', h1, h3, h4⟩

/-- The hypotheses of `removal_partial` hold for this map and an allocator that refuses; the loop that keeps one of the three entries meets all of them. -/
example : ∃ s m, Reach (fun _ : Nat => 7) NoAppend s m [(48, 3), (32, 2), (16, 1)] ∧
    (∀ u k, Owed (fun _ => 7) exOps ((fun _ _ => none : Nat → Nat → Option Addr) u) m [(48, 3), (32, 2), (16, 1)] (.del k)) ∧
    (forEachSafe (purge exOps (fun _ _ => none) (· / 16) (· == 32) 9) 9 40 0 s m).map (fun r => (r.1, forEach 9 r.2.1 r.2.2)) = some ([48, 32, 16], some [32]) := by
  obtain ⟨s, m, e, -, -, r⟩ := exThree_reach
  have c : exThree.bind (fun x => (forEachSafe (purge exOps (fun _ _ => none) (· / 16) (· == 32) 9) 9 40 0 x.1 x.2).map (fun r => (r.1, forEach 9 r.2.1 r.2.2))) =
      some ([48, 32, 16], some [32]) := by decide +kernel
  rw [e, Option.bind_some] at c
  exact ⟨s, m, r, fun _ k => exOwed_del _ _ _ (by decide) k (by simp), c⟩

end Bfdev.Hashmap

import Verif.Hashmap.Lemmas
/-!
C22: the hash map.
-/
namespace Bfdev.Hashmap
open Bfdev.Dlist (Addr Heap)
open Bfdev.Hlist (Chain IsChain World Step step_sound_partial)

/-- The two shapes of the map structure: without buckets, or with a power of two of them. -/
def Shape (m : Map) : Prop :=
  (m.buckets = 0 ∧ m.capacity = 0 ∧ m.bits = 0) ∨ (m.buckets ≠ 0 ∧ m.capacity = 2 ^ m.bits ∧ 4 ≤ m.bits ∧ m.bits ≤ 59)

/-- The map in memory holds the entries `M`. -/
structure Holds {κ : Type} (hash : κ → BitVec 64) (s : Heap) (m : Map) (M : List (Addr × κ)) (Bs : List (List Addr)) : Prop where
  shape : Shape m
  len : Bs.length = m.capacity
  world : World s (rows m.buckets Bs)
  perm : (M.map (·.1)).Perm Bs.flatten
  placed : ∀ (i : Nat) B, Bs[i]? = some B → ∀ n ∈ B, ∀ k, (n, k) ∈ M → slot m.capacity (hash k) = i
  used : m.used = M.length
  small : M.length < 2 ^ 64

theorem nodup_buckets {s : Heap} {p : Nat} {Bs : List (List Addr)} (hw : World s (rows p Bs)) : Bs.flatten.Nodup := by
  have h := hw.nodup
  clear hw
  induction Bs generalizing p with
  | nil => simp
  | cons B Bs ih =>
    simp only [rows, List.flatten_cons, List.cons_append, List.nodup_cons, List.nodup_append] at h ⊢
    refine ⟨h.2.1, ih h.2.2.1, fun a ha b hb => h.2.2.2 a ha b ?_⟩
    exact mem_rows_flatten.2 (Or.inl hb)

theorem Holds.nodup {κ : Type} {hash : κ → BitVec 64} {s : Heap} {m : Map} {M : List (Addr × κ)} {Bs : List (List Addr)} (h : Holds hash s m M Bs) :
    (M.map (·.1)).Nodup := h.perm.nodup_iff.2 (nodup_buckets h.world)

theorem mem_fst {κ : Type} {M : List (Addr × κ)} {n : Addr} {k : κ} (h : (n, k) ∈ M) : n ∈ M.map (·.1) := List.mem_map.2 ⟨_, h, rfl⟩

theorem Holds.node_mem {κ : Type} {hash : κ → BitVec 64} {s : Heap} {m : Map} {M : List (Addr × κ)} {Bs : List (List Addr)} (h : Holds hash s m M Bs)
    {i : Nat} {B : List Addr} (hB : Bs[i]? = some B) {n : Addr} (hn : n ∈ B) : ∃ k, (n, k) ∈ M := by
  have := h.perm.mem_iff.2 (List.mem_flatten.2 ⟨B, List.mem_of_getElem? hB, hn⟩)
  obtain ⟨⟨a, k⟩, h1, h2⟩ := List.mem_map.1 this
  exact ⟨k, by rw [← h2]; exact h1⟩

theorem Holds.bucket {κ : Type} {hash : κ → BitVec 64} {s : Heap} {m : Map} {M : List (Addr × κ)} {Bs : List (List Addr)} (h : Holds hash s m M Bs)
    {n : Addr} {k : κ} (hn : (n, k) ∈ M) : ∃ B, Bs[slot m.capacity (hash k)]? = some B ∧ n ∈ B := by
  obtain ⟨B, hB, hnB⟩ := List.mem_flatten.1 (h.perm.mem_iff.1 (mem_fst hn))
  obtain ⟨i, hi, e⟩ := List.mem_iff_getElem.1 hB
  have hB' : Bs[i]? = some B := by rw [List.getElem?_eq_getElem hi, e]
  rw [h.placed i B hB' n hnB k hn]
  exact ⟨B, hB', hnB⟩

theorem Holds.live_mem {κ : Type} {hash : κ → BitVec 64} {s : Heap} {m : Map} {M : List (Addr × κ)} {Bs : List (List Addr)} (h : Holds hash s m M Bs) (a : Nat) :
    a ∈ (rows m.buckets Bs).flatten ↔ a ∈ live m M := by
  rw [mem_rows_flatten, live, List.mem_append, h.perm.mem_iff, h.len, List.mem_map]
  constructor
  · rintro (h | ⟨i, h1, h2⟩)
    · exact Or.inl h
    · exact Or.inr ⟨i, List.mem_range.2 h1, h2.symm⟩
  · rintro (h | ⟨i, h1, h2⟩)
    · exact Or.inl h
    · exact Or.inr ⟨i, List.mem_range.1 h1, h2.symm⟩

theorem Holds.flatten_len {κ : Type} {hash : κ → BitVec 64} {s : Heap} {m : Map} {M : List (Addr × κ)} {Bs : List (List Addr)} (h : Holds hash s m M Bs) :
    Bs.flatten.length = M.length := by rw [← h.perm.length_eq, List.length_map]

theorem bucket_len {Bs : List (List Addr)} {B : List Addr} (h : B ∈ Bs) : B.length ≤ Bs.flatten.length := by
  induction Bs with
  | nil => simp at h
  | cons C Bs ih =>
    rw [List.flatten_cons, List.length_append]
    rcases List.mem_cons.1 h with rfl | h
    · omega
    · have := ih h; omega

/-- Searching the bucket of a hash with a test that accepts exactly the entries with key `k`. -/
theorem searchBucket {κ : Type} {hash : κ → BitVec 64} {s : Heap} {m : Map} {M : List (Addr × κ)} {Bs : List (List Addr)} (h : Holds hash s m M Bs)
    (fuel : Nat) (hf : M.length < fuel) (k : κ) (hit : Addr → Bool) (hh : ∀ n k', (n, k') ∈ M → (hit n = true ↔ k = k')) (hb : m.buckets ≠ 0) :
    ∃ r, ((Bloom.hashtblIndex (BitVec.ofNat 64 m.capacity) (hash k)).bind fun index =>
      (masked m.buckets m.capacity index).bind fun head => search s hit fuel (s.next head)) = some r ∧
      ((r ≠ 0 ∧ (r, k) ∈ M) ∨ (r = 0 ∧ ∀ e, (e, k) ∉ M)) := by
  rcases h.shape with ⟨h1, -⟩ | ⟨-, hc, h4, h59⟩
  · exact absurd h1 hb
  obtain ⟨e1, hs⟩ := slot_ok m.bits (by omega) (by omega) (hash k)
  have hi : slot (2 ^ m.bits) (hash k) < Bs.length := by rw [h.len, hc]; exact hs
  have hB : Bs[slot (2 ^ m.bits) (hash k)]? = some Bs[slot (2 ^ m.bits) (hash k)] := List.getElem?_eq_getElem hi
  generalize Bs[slot (2 ^ m.bits) (hash k)] = B at hB
  have hBm : B ∈ Bs := List.mem_of_getElem? hB
  have hch : IsChain s ((m.buckets + 8 * slot (2 ^ m.bits) (hash k)) :: B) := by
    obtain ⟨R, hp, -⟩ := rows_split m.buckets Bs _ hi
    refine h.world.chain _ (hp.mem_iff.2 ?_)
    rw [List.getElem?_eq_getElem hi, Option.some.injEq] at hB
    rw [hB]; exact List.mem_cons_self ..
  have hsr := search_ok hch.2 hit fuel (Nat.lt_of_le_of_lt (bucket_len hBm) (by rw [h.flatten_len]; exact hf))
  refine ⟨(B.find? hit).getD 0, ?_, ?_⟩
  · rw [hc, e1, Option.bind_some, masked_ok m.bits (by omega) _ _ hs, Option.bind_some, hsr]
  · cases hr : B.find? hit with
    | none =>
      right
      refine ⟨rfl, fun e he => ?_⟩
      obtain ⟨B', hB', heB⟩ := h.bucket he
      rw [hc, hB, Option.some.injEq] at hB'
      subst hB'
      have := List.find?_eq_none.1 hr e heB
      exact this ((hh e k he).2 rfl)
    | some r =>
      left
      have hrm := List.mem_of_find?_eq_some hr
      have hrh := List.find?_some hr
      obtain ⟨k', hk'⟩ := h.node_mem hB hrm
      have := (hh r k' hk').1 hrh
      subst this
      exact ⟨Hlist.chain_ne_zero hch r (by simp [hrm]), hk'⟩

/-- The blocks an allocator may return next to the live addresses `L`. -/
def Fresh (malloc : Nat → Option Addr) (L : List Addr) : Prop := ∀ bytes q, malloc bytes = some q → q ≠ 0 ∧ bytes < 2 ^ 63 ∧ ∀ a ∈ L, a < q ∨ q + bytes ≤ a

theorem Fresh.mono {malloc : Nat → Option Addr} {L L' : List Addr} (h : Fresh malloc L) (hs : ∀ a ∈ L', a ∈ L) : Fresh malloc L' :=
  fun bytes q e => ⟨(h bytes q e).1, (h bytes q e).2.1, fun a ha => (h bytes q e).2.2 a (hs a ha)⟩

theorem outside {q i n a : Nat} (h : a < q ∨ q + n * 8 ≤ a) (hi : i < n) : q + 8 * i ≠ a := by omega

/-- Rehashing, with the callbacks agreeing with `hash`. -/
theorem rehash_ok {κ : Type} {hash : κ → BitVec 64} {s : Heap} {m : Map} {M : List (Addr × κ)} {Bs : List (List Addr)} (h : Holds hash s m M Bs)
    (ops : Ops κ) (hn : ∀ n k, (n, k) ∈ M → ops.hashNode n = hash k) {malloc : Nat → Option Addr} {X : List Addr} (hm : Fresh malloc (live m M ++ X))
    (fuel : Nat) (hf : M.length < fuel) (nbits : Nat) (h4 : 4 ≤ nbits) (h60 : nbits ≤ 60) :
    ∃ r, rehash ops malloc fuel s m nbits = some r ∧ ((Refuses malloc ∧ r = (s, m, -12)) ∨
      (r.2.2 = 0 ∧ r.2.1.used = m.used ∧ r.2.1.buckets ≠ 0 ∧ (∃ Ns, Holds hash r.1 r.2.1 M Ns) ∧ ∀ a, a ∈ X → a ∉ M.map (·.1) → a ∉ live r.2.1 M)) := by
  have hb63 : (2 ^ nbits * 8 : Nat) = 2 ^ (nbits + 3) := by rw [Nat.pow_add]
  have hb64 : (2 : Nat) ^ (nbits + 3) < 2 ^ 64 := Nat.pow_lt_pow_right (by decide) (by omega)
  have hmod : 2 ^ nbits * 8 % 2 ^ 64 = 2 ^ nbits * 8 := Nat.mod_eq_of_lt (by rw [hb63]; exact hb64)
  rw [rehash, if_neg (by omega)]
  dsimp only
  rw [hmod]
  cases hq : malloc (2 ^ nbits * 8) with
  | none => exact ⟨_, rfl, Or.inl ⟨⟨_, hq⟩, rfl⟩⟩
  | some q =>
    obtain ⟨q0, qs, qd⟩ := hm _ _ hq
    have h59 : nbits ≤ 59 := by
      rw [hb63] at qs
      have := (Nat.pow_lt_pow_iff_right (a := 2) (by decide)).1 qs
      omega
    simp only [Nat.lt_irrefl, if_false]
    obtain ⟨s1, e1, w1⟩ := tblInit_ok h.world q (2 ^ nbits) q0 (fun i hi hmem => outside (qd _ (List.mem_append_left X ((h.live_mem _).1 hmem))) hi rfl)
    have hmove : ∃ s2, forN m.capacity (fun index s => (masked m.buckets m.capacity index).bind fun head => drain ops q (2 ^ nbits) fuel s (s.next head)) s1 = some s2 ∧
        World s2 (rows q (Bs.flatten.foldl (push ops.hashNode (2 ^ nbits)) (List.replicate (2 ^ nbits) []))) := by
      rcases h.shape with ⟨-, hc, -⟩ | ⟨-, hc, h4', h59'⟩
      · have : Bs = [] := List.length_eq_zero_iff.1 (by rw [h.len, hc])
        subst this
        rw [hc, forN]
        exact ⟨s1, rfl, (world_split w1).1⟩
      · rw [hc]
        exact move_ok ops (by omega) (by omega) (by omega) (by rw [h.len, hc]) s1 fuel
          (fun B hB => Nat.lt_of_le_of_lt (bucket_len hB) (by rw [h.flatten_len]; exact hf)) w1
    obtain ⟨s2, e2, w2⟩ := hmove
    refine ⟨_, by rw [e1, Option.bind_some, e2, Option.map_some], Or.inr ⟨rfl, rfl, q0, ⟨Bs.flatten.foldl (push ops.hashNode (2 ^ nbits)) (List.replicate (2 ^ nbits) []), ?_⟩, ?_⟩⟩
    · refine ⟨Or.inr ⟨q0, rfl, h4, h59⟩, ?_, w2, ?_, ?_, h.used, h.small⟩
      · rw [foldl_push_length, List.length_replicate]
      · refine h.perm.trans (List.Perm.symm ?_)
        refine (foldl_push_perm ops.hashNode nbits (by omega) (by omega) Bs.flatten _ (by simp)).trans ?_
        simp
      · intro i B hB n hnB k hk
        have hpl : Placed ops.hashNode (2 ^ nbits) (List.replicate (2 ^ nbits) []) := by
          intro i B hB n hn
          rw [List.getElem?_replicate] at hB
          split at hB
          · simp only [Option.some.injEq] at hB; rw [← hB] at hn; simp at hn
          · simp at hB
        have := placed_foldl Bs.flatten hpl i B hB n hnB
        rw [hn n k hk] at this
        exact this
    · intro a ha hna
      rw [live, List.mem_append]
      rintro (h | h)
      · exact hna h
      · obtain ⟨i, hi, e⟩ := List.mem_map.1 h
        exact outside (qd a (List.mem_append_right _ ha)) (List.mem_range.1 hi) e

theorem holds_init {κ : Type} (hash : κ → BitVec 64) (s : Heap) : Holds hash s init [] [] :=
  ⟨Or.inl ⟨rfl, rfl, rfl⟩, rfl, ⟨fun _ h => absurd h List.not_mem_nil, List.nodup_nil⟩, List.Perm.refl _, fun _ _ h => by simp at h, rfl, by simp⟩

theorem holds_perm {κ : Type} {hash : κ → BitVec 64} {s : Heap} {m : Map} {M M' : List (Addr × κ)} {Bs : List (List Addr)} (h : Holds hash s m M Bs) (hp : M.Perm M') :
    Holds hash s m M' Bs :=
  ⟨h.shape, h.len, h.world, (hp.map _).symm.trans h.perm, fun i B hB n hn k hk => h.placed i B hB n hn k (hp.mem_iff.2 hk), by rw [h.used, hp.length_eq],
    by rw [← hp.length_eq]; exact h.small⟩

/-- Adding a node that was not in the map. -/
theorem insertTail_ok {κ : Type} {hash : κ → BitVec 64} {s : Heap} {m : Map} {M : List (Addr × κ)} {Bs : List (List Addr)} (h : Holds hash s m M Bs) (hb : m.buckets ≠ 0)
    {n : Nat} {k : κ} (h0 : n ≠ 0) (hn : n ∉ live m M) (hlen : M.length + 1 < 2 ^ 64) (v : BitVec 64) (hv : v = hash k) :
    ∃ out, insertTail s m n v = some out ∧ out.code = 0 ∧ out.node = none ∧ ∃ Ns, Holds hash out.heap out.map ((n, k) :: M) Ns := by
  rcases h.shape with ⟨h1, -⟩ | ⟨-, hc, h4, h59⟩
  · exact absurd h1 hb
  have hw : World s (rows m.buckets Bs ++ []) := by rw [List.append_nil]; exact h.world
  have hnm : n ∉ (rows m.buckets Bs ++ []).flatten := by rw [List.append_nil, h.live_mem]; exact hn
  have hlB : Bs.length = 2 ^ m.bits := by rw [h.len, hc]
  obtain ⟨s', e, w⟩ := tblAdd_ok (by omega) (by omega) hlB hw h0 hnm (fun _ => v)
  rw [List.append_nil] at w
  have hnM : n ∉ M.map (·.1) := fun hx => hn (by rw [live]; exact List.mem_append_left _ hx)
  refine ⟨_, by rw [insertTail, show tblAdd s m.buckets m.capacity n v = some s' by rw [hc]; exact e, Option.map_some], rfl, rfl, ⟨_, ⟨h.shape, ?_, w, ?_, ?_, ?_, hlen⟩⟩⟩
  · rw [push_length, h.len]
  · exact (h.perm.cons n).trans (push_perm _ m.bits (by omega) (by omega) Bs hlB n).symm
  · intro i B hB x hx k' hk'
    show slot m.capacity (hash k') = i
    simp only [push, List.getElem?_set] at hB
    have old : ∀ B', Bs[i]? = some B' → x ∈ B' → slot m.capacity (hash k') = i := by
      intro B' hB' hx'
      rcases List.mem_cons.1 hk' with he | hk'
      · obtain ⟨k'', hk''⟩ := h.node_mem hB' hx'
        have hxn : x = n := congrArg Prod.fst he
        exact absurd (mem_fst (hxn ▸ hk'')) hnM
      · exact h.placed i B' hB' x hx' k' hk'
    split at hB
    · next es =>
      split at hB
      · next hi =>
        simp only [Option.some.injEq] at hB
        rw [← hB, List.mem_cons] at hx
        rcases hx with rfl | hx
        · rcases List.mem_cons.1 hk' with he | hk'
          · have : k' = k := congrArg Prod.snd he
            rw [this, ← hv, hc]; exact es
          · exact absurd (mem_fst hk') hnM
        · rw [List.getElem?_eq_getElem hi] at hx
          exact old _ (by rw [← es]; exact List.getElem?_eq_getElem hi) hx
      · simp at hB
    · exact old B hB hx
  · show (m.used + 1) % 2 ^ 64 = M.length + 1
    rw [h.used, Nat.mod_eq_of_lt hlen]

/-- Insertion where no entry is to be found. -/
theorem insertNew_ok {κ : Type} {hash : κ → BitVec 64} {s : Heap} {m : Map} {M : List (Addr × κ)} {Bs : List (List Addr)} (h : Holds hash s m M Bs)
    (ops : Ops κ) (hn : ∀ n k, (n, k) ∈ M → ops.hashNode n = hash k) {malloc : Nat → Option Addr} {n : Nat} {k : κ} (hm : Fresh malloc (live m M ++ [n]))
    (h0 : n ≠ 0) (hnl : n ∉ live m M) (hv : ops.hashNode n = hash k) (fuel : Nat) (hf : M.length < fuel) (hlen : M.length + 1 < 2 ^ 64) (st : Strategy) :
    ∃ out, insertNew ops malloc fuel s m n st = some out ∧ out.node = none ∧
      ((st = .update ∧ out.code = -2 ∧ out.heap = s ∧ out.map = m) ∨ (st ≠ .update ∧ out.code = -12 ∧ Refuses malloc ∧ out.heap = s ∧ out.map = m) ∨
        (st ≠ .update ∧ out.code = 0 ∧ ∃ Ns, Holds hash out.heap out.map ((n, k) :: M) Ns)) := by
  have hnM : n ∉ M.map (·.1) := fun hx => hnl (by rw [live]; exact List.mem_append_left _ hx)
  rw [insertNew]
  by_cases hst : st = .update
  · rw [if_pos hst]
    exact ⟨_, rfl, rfl, Or.inl ⟨hst, rfl, rfl, rfl⟩⟩
  rw [if_neg hst]
  cases hx : needExtend ops m with
  | false =>
    have hb : m.buckets ≠ 0 := by
      rcases h.shape with ⟨-, h1, -⟩ | ⟨h1, -⟩
      · rw [needExtend, if_pos h1] at hx; simp at hx
      · exact h1
    obtain ⟨out, e, e1, e2, Ns, hN⟩ := insertTail_ok h hb (k := k) h0 hnl hlen (ops.hashNode n) hv
    exact ⟨out, by simp only [Bool.false_eq_true, if_false]; exact e, e2, Or.inr (Or.inr ⟨hst, e1, Ns, hN⟩)⟩
  | true =>
    simp only [if_true]
    have hbits : m.bits ≤ 59 := by
      rcases h.shape with ⟨-, -, h1⟩ | ⟨-, -, -, h1⟩
      · omega
      · exact h1
    have hmod : (m.bits + 1) % 2 ^ 32 = m.bits + 1 := Nat.mod_eq_of_lt (by omega)
    have key : ∀ nb, 4 ≤ nb → nb ≤ 60 → ∃ out, ((rehash ops malloc fuel s m nb).bind fun r =>
        if r.2.2 ≠ 0 then some ⟨r.1, r.2.1, r.2.2, none⟩ else insertTail r.1 r.2.1 n (ops.hashNode n)) = some out ∧ out.node = none ∧
      ((st = .update ∧ out.code = -2 ∧ out.heap = s ∧ out.map = m) ∨ (st ≠ .update ∧ out.code = -12 ∧ Refuses malloc ∧ out.heap = s ∧ out.map = m) ∨
        (st ≠ .update ∧ out.code = 0 ∧ ∃ Ns, Holds hash out.heap out.map ((n, k) :: M) Ns)) := by
      intro nb h4 h60
      obtain ⟨r, e, hr⟩ := rehash_ok h ops hn hm fuel hf nb h4 h60
      rw [e, Option.bind_some]
      rcases hr with ⟨h1, rfl⟩ | ⟨h1, h2, h3, ⟨Ns, hN⟩, h5⟩
      · exact ⟨⟨s, m, -12, none⟩, rfl, rfl, Or.inr (Or.inl ⟨hst, rfl, h1, rfl, rfl⟩)⟩
      · rw [if_neg (by rw [h1]; simp)]
        obtain ⟨out, e, e1, e2, Ns', hN'⟩ := insertTail_ok hN h3 (k := k) h0 (h5 n (by simp) hnM) hlen (ops.hashNode n) hv
        exact ⟨out, e, e2, Or.inr (Or.inr ⟨hst, e1, Ns', hN'⟩)⟩
    simp only [extend, hmod]
    split
    · exact key 4 (by omega) (by omega)
    · exact key (m.bits + 1) (by omega) (by omega)

/-- Replacing a node by one with the same key. -/
theorem replace_ok {κ : Type} {hash : κ → BitVec 64} {s : Heap} {m : Map} {M : List (Addr × κ)} {Bs : List (List Addr)} (h : Holds hash s m M Bs)
    {e n : Nat} {k : κ} (he : (e, k) ∈ M) (h0 : n ≠ 0) (hnl : n ∉ live m M) :
    ∃ s', Hlist.replace s e n = some s' ∧ ∃ Ns, Holds hash s' m (M.map fun p => if p.1 = e then (n, k) else p) Ns := by
  obtain ⟨B, hB, heB⟩ := h.bucket he
  generalize hi' : slot m.capacity (hash k) = i at hB
  have hi : i < Bs.length := (List.getElem?_eq_some_iff.1 hB).1
  have hBe : Bs[i] = B := (List.getElem?_eq_some_iff.1 hB).2
  obtain ⟨l, r, rfl⟩ := List.append_of_mem heB
  obtain ⟨R, hp, hq⟩ := rows_split m.buckets Bs i hi
  rw [hBe] at hp
  have hnw : n ∉ (rows m.buckets Bs).flatten := fun hx => hnl ((h.live_mem n).1 hx)
  obtain ⟨s', e1, w1⟩ := step_sound_partial h.world (Step.perm hp (Step.replace (h := m.buckets + 8 * i) (l := l) (o := e) (r := r) h0
    (fun hx => hnw (hp.flatten.mem_iff.2 hx))))
  have hnd := h.nodup
  have hnM : n ∉ M.map (·.1) := fun hx => hnl (by rw [live]; exact List.mem_append_left _ hx)
  have hBn := nodup_buckets h.world
  refine ⟨s', e1, Bs.set i (l ++ n :: r), ⟨h.shape, by rw [List.length_set, h.len], Hlist.world_perm (hq _).symm w1, ?_, ?_, by rw [List.length_map, h.used], by rw [List.length_map]; exact h.small⟩⟩
  · obtain ⟨R', hp', hq'⟩ := flatten_split Bs i hi
    rw [hBe] at hp'
    refine List.Perm.trans ?_ (hq' _).symm
    have e3 : (M.map fun p => if p.1 = e then (n, k) else p).map (·.1) = (M.map (·.1)).map fun x => if x = e then n else x := by
      rw [List.map_map, List.map_map]
      apply List.map_congr_left
      intro p _
      simp only [Function.comp_apply]
      split <;> rfl
    rw [e3]
    refine ((h.perm.trans hp').map _).trans (List.Perm.of_eq ?_)
    have hnd' := (hp'.nodup_iff).1 hBn
    have id1 : ∀ (L : List Nat), e ∉ L → (L.map fun x => if x = e then n else x) = L := by
      intro L hL
      conv => rhs; rw [← List.map_id L]
      apply List.map_congr_left
      intro x hx
      have hxe : x ≠ e := fun hh => hL (hh ▸ hx)
      rw [if_neg hxe]; rfl
    rw [List.map_append, List.map_append, List.map_cons, if_pos rfl, id1 l, id1 r, id1 R']
    · nds hnd'
    · nds hnd'
    · nds hnd'
  · intro j B' hB' x hx k' hk'
    obtain ⟨⟨y, ky⟩, hy, hye⟩ := List.mem_map.1 hk'
    dsimp only at hye
    have hstay : ∀ B'', Bs[j]? = some B'' → x ∈ B'' → x ≠ e → slot m.capacity (hash k') = j := by
      intro B'' h1 h2 h3
      obtain ⟨kx, hkx⟩ := h.node_mem h1 h2
      split at hye
      · have : n = x := congrArg Prod.fst hye
        exact absurd (mem_fst (this ▸ hkx)) hnM
      · rw [hye] at hy
        exact h.placed j B'' h1 x h2 k' hy
    rw [List.getElem?_set] at hB'
    split at hB'
    · next ej =>
      simp only [hi, if_true, Option.some.injEq] at hB'
      rw [← hB', List.mem_append, List.mem_cons] at hx
      subst ej
      obtain ⟨R', hp', -⟩ := flatten_split Bs i hi
      rw [hBe] at hp'
      have hnd' := (hp'.nodup_iff).1 hBn
      by_cases hxn : x = n
      · split at hye
        · have : k = k' := congrArg Prod.snd hye
          rw [← this]; exact hi'
        · rw [hye] at hy; exact absurd (mem_fst (hxn ▸ hy)) hnM
      · rcases hx with hx | hx | hx
        · refine hstay _ hB (by simp [hx]) ?_
          intro hxe; subst hxe; revert hx; nds hnd'
        · exact absurd hx hxn
        · refine hstay _ hB (by simp [hx]) ?_
          intro hxe; subst hxe; revert hx; nds hnd'
    · next ej =>
      refine hstay _ hB' hx ?_
      intro hxe
      subst hxe
      exact ej (by rw [← hi']; exact h.placed j B' hB' x hx k he)

theorem sub_one_mod {a b : Nat} (h : a + 1 = b) (hb : b < 2 ^ 64) : (b + 2 ^ 64 - 1) % 2 ^ 64 = a := by omega

/-- Unlinking a node at a known place. -/
theorem delInit_at {κ : Type} {hash : κ → BitVec 64} {s : Heap} {m : Map} {M : List (Addr × κ)} {Bs : List (List Addr)} (h : Holds hash s m M Bs)
    {i e : Nat} {l r : List Addr} (hB : Bs[i]? = some (l ++ e :: r)) (u : Nat) (hu : u = (M.length + 2 ^ 64 - 1) % 2 ^ 64) :
    ∃ s', Hlist.delInit s e = some s' ∧ Holds hash s' { m with used := u } (M.filter fun p => some p.1 ≠ some e) (Bs.set i (l ++ r)) := by
  have hi : i < Bs.length := (List.getElem?_eq_some_iff.1 hB).1
  have hBe : Bs[i] = l ++ e :: r := (List.getElem?_eq_some_iff.1 hB).2
  obtain ⟨R, hp, hq⟩ := rows_split m.buckets Bs i hi
  rw [hBe] at hp
  obtain ⟨s', e1, w1⟩ := step_sound_partial h.world (Step.perm hp (Step.delInit (h := m.buckets + 8 * i) (l := l) (x := e) (r := r)))
  have hnd := h.nodup
  have hBn := nodup_buckets h.world
  obtain ⟨R', hp', hq'⟩ := flatten_split Bs i hi
  rw [hBe] at hp'
  have hnd' := (hp'.nodup_iff).1 hBn
  have hperm : ((M.filter fun p => some p.1 ≠ some e).map (·.1)).Perm (Bs.set i (l ++ r)).flatten := by
    refine List.Perm.trans ?_ (hq' _).symm
    have e3 : (M.filter fun p => some p.1 ≠ some e).map (·.1) = (M.map (·.1)).filter fun x => x ≠ e := by
      rw [List.filter_map]
      congr 1
      apply List.filter_congr
      intro p _
      simp
    rw [e3]
    refine ((h.perm.trans hp').filter _).trans (List.Perm.of_eq ?_)
    have id1 : ∀ (L : List Nat), e ∉ L → L.filter (fun x => x ≠ e) = L := by
      intro L hL
      refine List.filter_eq_self.2 (fun x hx => ?_)
      simp only [ne_eq, decide_eq_true_eq]
      exact fun hh => hL (hh ▸ hx)
    rw [List.filter_append, List.filter_append, List.filter_cons, if_neg (by simp), id1 l, id1 r, id1 R']
    · nds hnd'
    · nds hnd'
    · nds hnd'
  have hl1 : (M.filter fun p => some p.1 ≠ some e).length + 1 = M.length := by
    have h1 := hperm.length_eq
    rw [List.length_map] at h1
    have h2 := h.flatten_len
    have h3 := hp'.length_eq
    have h4 := (hq' (l ++ r)).length_eq
    simp only [List.length_append, List.length_cons] at h3 h4
    omega
  refine ⟨s', e1, ⟨h.shape, by rw [List.length_set]; exact h.len, Hlist.world_perm (hq _).symm w1, hperm, ?_, ?_, ?_⟩⟩
  · intro j B' hB' x hx k' hk'
    have hk := (List.mem_filter.1 hk').1
    show slot m.capacity (hash k') = j
    rw [List.getElem?_set] at hB'
    split at hB'
    · next ej =>
      simp only [hi, if_true, Option.some.injEq] at hB'
      subst ej
      refine h.placed i _ hB x ?_ k' hk
      rw [← hB', List.mem_append] at hx
      rw [List.mem_append, List.mem_cons]
      rcases hx with hx | hx
      · exact Or.inl hx
      · exact Or.inr (Or.inr hx)
    · exact h.placed j B' hB' x hx k' hk
  · show u = _
    rw [hu]
    exact sub_one_mod hl1 h.small
  · have := h.small
    omega

/-- Unlinking a node. -/
theorem delInit_ok {κ : Type} {hash : κ → BitVec 64} {s : Heap} {m : Map} {M : List (Addr × κ)} {Bs : List (List Addr)} (h : Holds hash s m M Bs)
    {e : Nat} {k : κ} (he : (e, k) ∈ M) (u : Nat) (hu : u = (M.length + 2 ^ 64 - 1) % 2 ^ 64) :
    ∃ s', Hlist.delInit s e = some s' ∧ ∃ Ns, Holds hash s' { m with used := u } (M.filter fun p => some p.1 ≠ some e) Ns := by
  obtain ⟨B, hB, heB⟩ := h.bucket he
  obtain ⟨l, r, rfl⟩ := List.append_of_mem heB
  obtain ⟨s', h1, h2⟩ := delInit_at h hB u hu
  exact ⟨s', h1, _, h2⟩

/-- One call on a map holding the entries `M`. -/
theorem call_ok {κ : Type} {hash : κ → BitVec 64} {s : Heap} {m : Map} {M : List (Addr × κ)} {Bs : List (List Addr)} (h : Holds hash s m M Bs)
    {ops : Ops κ} {malloc : Nat → Option Addr} {op : Op κ} (ho : Owed hash ops malloc m M op) (fuel : Nat) (hf : M.length < fuel) (hlen : M.length + 1 < 2 ^ 64) :
    ∃ out, Op.run ops malloc fuel s m op = some out ∧ Right M (Refuses malloc) op out.code out.node ∧
      ∃ Ns, Holds hash out.heap out.map (after M op out.code out.node) Ns := by
  have hm : Fresh malloc (live m M ++ op.fresh) := ho.malloc
  have empty : m.buckets = 0 → ∀ e k, (e, k) ∉ M := by
    intro hb e k he
    rcases h.shape with ⟨-, h1, -⟩ | ⟨h1, -⟩
    · have : Bs = [] := List.length_eq_zero_iff.1 (by rw [h.len, h1])
      have h2 := h.flatten_len
      rw [this] at h2
      rw [List.length_eq_zero_iff.1 h2.symm] at he
      exact absurd he List.not_mem_nil
    · exact h1 hb
  have find_ok : ∀ key : κ, ∃ r, findKey ops fuel s m key (ops.hashKey key) = some r ∧ ((r ≠ 0 ∧ (r, key) ∈ M) ∨ (r = 0 ∧ ∀ e, (e, key) ∉ M)) := by
    intro key
    rw [ho.hashKey, findKey]
    by_cases hb : m.buckets = 0
    · rw [if_pos hb]
      exact ⟨0, rfl, Or.inr ⟨rfl, fun e => empty hb e key⟩⟩
    · rw [if_neg hb]
      exact searchBucket h fuel hf key _ (fun n k' hk' => by rw [beq_iff_eq, ho.find n k' hk' key]; exact eq_comm) hb
  cases op with
  | release => exact ⟨_, rfl, ⟨rfl, rfl⟩, [], holds_init hash s⟩
  | find key =>
    obtain ⟨r, e, hr⟩ := find_ok key
    refine ⟨_, by rw [Op.run, find, e, Option.map_some], ⟨rfl, ?_⟩, Bs, h⟩
    rcases hr with ⟨h0, h1⟩ | ⟨h0, h1⟩
    · exact Or.inl ⟨r, h1, if_neg h0⟩
    · exact Or.inr ⟨h1, if_pos h0⟩
  | del key =>
    obtain ⟨r, e, hr⟩ := find_ok key
    simp only [Op.run, del, e, Option.bind_some]
    rcases hr with ⟨h0, h1⟩ | ⟨h0, h1⟩
    · rw [if_neg h0]
      obtain ⟨s', e', Ns, hN⟩ := delInit_ok h h1 ((m.used + 2 ^ 64 - 1) % 2 ^ 64) (by rw [h.used])
      rw [e', Option.bind_some]
      have hbits : 4 ≤ m.bits ∧ m.bits ≤ 59 := by
        rcases h.shape with ⟨hb, -⟩ | ⟨-, -, h1, h2⟩
        · exact absurd h1 (empty hb r key)
        · exact ⟨h1, h2⟩
      generalize (m.used + 2 ^ 64 - 1) % 2 ^ 64 = u at hN ⊢
      have hR : Right M (Refuses malloc) (.del key) 0 (some r) := Or.inl ⟨r, h1, rfl, rfl⟩
      have hA : after M (.del key) 0 (some r) = M.filter fun p => some p.1 ≠ some r := rfl
      split
      · have hsub : ∀ a ∈ live { m with used := u } (M.filter fun p => some p.1 ≠ some r) ++ [], a ∈ live m M ++ Op.fresh (.del key) := by
          intro a ha
          rw [List.append_nil, live, List.mem_append] at ha
          refine List.mem_append_left _ ?_
          rw [live, List.mem_append]
          rcases ha with ha | ha
          · obtain ⟨p, hp, rfl⟩ := List.mem_map.1 ha
            exact Or.inl (List.mem_map.2 ⟨p, (List.mem_filter.1 hp).1, rfl⟩)
          · exact Or.inr ha
        have key' : ∀ nb, 4 ≤ nb → nb ≤ 60 → ∃ out, ((rehash ops malloc fuel s' { m with used := u } nb).map fun x => (⟨x.1, x.2.1, 0, some r⟩ : Out)) = some out ∧
            Right M (Refuses malloc) (.del key) out.code out.node ∧ ∃ Ns, Holds hash out.heap out.map (after M (.del key) out.code out.node) Ns := by
          intro nb h4 h60
          obtain ⟨x, ex, hx⟩ := rehash_ok hN ops (fun n k hk => ho.hashNode n k (List.mem_filter.1 hk).1) (hm.mono hsub) fuel
            (Nat.lt_of_le_of_lt (List.length_filter_le ..) hf) nb h4 h60
          rw [ex, Option.map_some]
          refine ⟨_, rfl, hR, ?_⟩
          rcases hx with ⟨-, rfl⟩ | ⟨-, -, -, ⟨Ns', hN'⟩, -⟩
          · exact ⟨Ns, hN⟩
          · exact ⟨Ns', hN'⟩
        have hmod : (m.bits + 2 ^ 32 - 1) % 2 ^ 32 = m.bits - 1 := by omega
        simp only [shrink, hmod]
        split
        · exact key' 4 (by omega) (by omega)
        · exact key' (m.bits - 1) (by omega) (by omega)
      · exact ⟨_, rfl, hR, Ns, hN⟩
    · rw [if_pos h0]
      exact ⟨_, rfl, Or.inr ⟨h1, rfl, rfl⟩, Bs, h⟩
  | insert n key st =>
    obtain ⟨h0, hnl, hv, heq⟩ := ho.node n key st rfl
    have new : (st = .append ∨ ∀ e, (e, key) ∉ M) → ∃ out, insertNew ops malloc fuel s m n st = some out ∧ Right M (Refuses malloc) (.insert n key st) out.code out.node ∧
        ∃ Ns, Holds hash out.heap out.map (after M (.insert n key st) out.code out.node) Ns := by
      intro hor
      obtain ⟨out, e, e1, e2⟩ := insertNew_ok h ops ho.hashNode hm h0 hnl hv fuel hf hlen st
      refine ⟨out, e, ?_, ?_⟩
      · simp only [Right]
        by_cases ha : st = .append
        · rw [if_pos ha]
          refine ⟨e1, ?_⟩
          rcases e2 with ⟨h1, -⟩ | ⟨-, h1, h2, -⟩ | ⟨-, h1, -⟩
          · rw [ha] at h1; exact absurd h1 (by decide)
          · exact Or.inr ⟨h1, h2⟩
          · exact Or.inl h1
        · rw [if_neg ha]
          have hno := hor.resolve_left ha
          refine Or.inr ⟨hno, e1, ?_⟩
          rcases e2 with ⟨h1, h2, -⟩ | ⟨h1, h2, h3, -⟩ | ⟨h1, h2, -⟩
          · rw [if_pos h1]; exact h2
          · rw [if_neg h1]; exact Or.inr ⟨h2, h3⟩
          · rw [if_neg h1]; exact Or.inl h2
      · simp only [after, e1]
        rcases e2 with ⟨-, h1, h2, h3⟩ | ⟨-, h1, -, h2, h3⟩ | ⟨-, h1, h2⟩
        · rw [h1, h2, h3]; exact ⟨Bs, h⟩
        · rw [h1, h2, h3]; exact ⟨Bs, h⟩
        · rw [h1]; exact h2
    simp only [Op.run, insert]
    by_cases ha : st = .append
    · rw [if_neg (by simp [ha])]
      exact new (Or.inl ha)
    · rw [if_pos ha]
      have hfind : ∃ r, findNode ops fuel s m n (ops.hashNode n) = some r ∧ ((r ≠ 0 ∧ (r, key) ∈ M) ∨ (r = 0 ∧ ∀ e, (e, key) ∉ M)) := by
        rw [hv, findNode]
        by_cases hb : m.buckets = 0
        · rw [if_pos hb]
          exact ⟨0, rfl, Or.inr ⟨rfl, fun e => empty hb e key⟩⟩
        · rw [if_neg hb]
          exact searchBucket h fuel hf key _ (fun e k' hk' => by rw [beq_iff_eq]; exact heq e k' hk') hb
      obtain ⟨r, e, hr⟩ := hfind
      rw [e, Option.bind_some]
      rcases hr with ⟨r0, h1⟩ | ⟨r0, h1⟩
      · rw [if_pos r0]
        by_cases hadd : st = .add
        · rw [if_pos hadd]
          refine ⟨_, rfl, ?_, Bs, h⟩
          simp only [Right, if_neg ha, if_pos hadd]
          exact Or.inl ⟨r, h1, rfl, trivial⟩
        · rw [if_neg hadd]
          obtain ⟨s', e', Ns, hN⟩ := replace_ok h h1 h0 hnl
          rw [e', Option.map_some]
          refine ⟨_, rfl, ?_, Ns, hN⟩
          simp only [Right, if_neg ha, if_neg hadd]
          exact Or.inl ⟨r, h1, rfl, trivial⟩
      · rw [if_neg (by simp [r0])]
        exact new (Or.inr h1)

theorem reach_holds {κ : Type} {hash : κ → BitVec 64} {P : Op κ → Prop} {s : Heap} {m : Map} {M : List (Addr × κ)} (h : Reach hash P s m M) :
    ∃ Bs, Holds hash s m M Bs := by
  induction h with
  | @init s => exact ⟨[], holds_init hash s⟩
  | call _ _ ho hf hlen hrun ih =>
    obtain ⟨Bs, hB⟩ := ih
    obtain ⟨out, e, -, Ns, hN⟩ := call_ok hB ho _ hf hlen
    rw [hrun, Option.some.injEq] at e
    rw [e]; exact ⟨Ns, hN⟩

/-- C22: after any history of calls, with any callbacks that agree with the keys, any hash function and any allocation failures, the
next call does not fail in an undefined way and its answer is right for the entries that were inserted and not deleted since;
failing calls change nothing. -/
theorem hashmap_calls {κ : Type} {hash : κ → BitVec 64} {s : Heap} {m : Map} {M : List (Addr × κ)} (h : Reach hash (fun _ => True) s m M)
    {ops : Ops κ} {malloc : Nat → Option Addr} {op : Op κ} (ho : Owed hash ops malloc m M op) (fuel : Nat) (hf : M.length < fuel) (hlen : M.length + 1 < 2 ^ 64) :
    ∃ out, Op.run ops malloc fuel s m op = some out ∧ Right M (Refuses malloc) op out.code out.node ∧
      Reach hash (fun _ => True) out.heap out.map (after M op out.code out.node) := by
  obtain ⟨Bs, hB⟩ := reach_holds h
  obtain ⟨out, e, hR, -⟩ := call_ok hB ho fuel hf hlen
  exact ⟨out, e, hR, Reach.call h trivial ho hf hlen e⟩

/-- The iteration goes through the buckets in turn. -/
theorem each_flatten {κ : Type} {hash : κ → BitVec 64} {s : Heap} {m : Map} {M : List (Addr × κ)} {Bs : List (List Addr)} (h : Holds hash s m M Bs)
    {fuel : Nat} (hf : M.length < fuel) : forEach fuel s m = some Bs.flatten := by
  rw [forEach]
  rcases h.shape with ⟨-, hc, -⟩ | ⟨-, hc, h4, h59⟩
  · have : Bs = [] := List.length_eq_zero_iff.1 (by rw [h.len, hc])
    rw [hc, this]; rfl
  · have hl : Bs.length = 2 ^ m.bits := by rw [h.len, hc]
    rw [hc]
    obtain ⟨t, e, ht⟩ := forN_inv (P := fun i t => t = (Bs.take i).flatten) (2 ^ m.bits)
      (fun index l => (masked m.buckets (2 ^ m.bits) index).bind fun head => (Hlist.forEach s head fuel).map (l ++ ·)) [] rfl (fun i hi t ht => by
        have hi' : i < Bs.length := by omega
        obtain ⟨R, hp, -⟩ := rows_split m.buckets Bs i hi'
        have hch := h.world.chain _ (hp.mem_iff.2 (List.mem_cons_self ..))
        rw [masked_ok m.bits (by omega) _ i hi, Option.bind_some, Hlist.traversal hch fuel
          (Nat.lt_of_le_of_lt (bucket_len (List.getElem_mem hi')) (by rw [h.flatten_len]; exact hf)), Option.map_some]
        refine ⟨_, rfl, ?_⟩
        rw [ht, List.take_succ, List.getElem?_eq_getElem hi', Option.toList_some, List.flatten_append, List.flatten_singleton])
    rw [e, ht, List.take_of_length_le (by omega)]

/-- C22: iterating over the map visits every entry exactly once, and the count is right. -/
theorem hashmap_iteration {κ : Type} {hash : κ → BitVec 64} {s : Heap} {m : Map} {M : List (Addr × κ)} (h : Reach hash (fun _ => True) s m M)
    (fuel : Nat) (hf : M.length < fuel) : m.used = M.length ∧ ∃ l, forEach fuel s m = some l ∧ l.Perm (M.map (·.1)) ∧ l.Nodup := by
  obtain ⟨Bs, h⟩ := reach_holds h
  exact ⟨h.used, Bs.flatten, each_flatten h hf, h.perm.symm, nodup_buckets h.world⟩

theorem assoc_iff {κ : Type} [DecidableEq κ] {M : List (Addr × κ)} (hu : (M.map (·.2)).Nodup) (k : κ) (e : Addr) : assoc M k = some e ↔ (e, k) ∈ M := by
  rw [assoc]
  induction M with
  | nil => simp
  | cons p M ih =>
    obtain ⟨a, b⟩ := p
    simp only [List.map_cons, List.nodup_cons] at hu
    rw [List.find?_cons]
    by_cases hb : b = k
    · subst hb
      simp only [decide_true, Option.map_some, Option.some.injEq, List.mem_cons, Prod.mk.injEq, and_true]
      constructor
      · intro h; exact Or.inl h.symm
      · rintro (h | h)
        · exact h.symm
        · exact absurd (List.mem_map.2 ⟨_, h, rfl⟩) hu.1
    · simp only [hb, decide_false, ih hu.2, List.mem_cons, Prod.mk.injEq]
      constructor
      · exact Or.inr
      · rintro (⟨-, h⟩ | h)
        · exact absurd h.symm hb
        · exact h

theorem assoc_none {κ : Type} [DecidableEq κ] {M : List (Addr × κ)} (k : κ) : assoc M k = none ↔ ∀ e, (e, k) ∉ M := by
  rw [assoc, Option.map_eq_none_iff, List.find?_eq_none]
  constructor
  · intro h e he; exact h _ he (by simp)
  · intro h p hp hk; exact h p.1 (by simp only [decide_eq_true_eq] at hk; rw [← hk]; exact hp)

theorem assoc_ext {κ : Type} [DecidableEq κ] {M : List (Addr × κ)} (hu : (M.map (·.2)).Nodup) (F : κ → Option Addr) (h : ∀ k e, (e, k) ∈ M ↔ F k = some e) : assoc M = F := by
  funext k
  apply Option.ext
  intro e
  rw [assoc_iff hu, h]

theorem pair_unique {κ : Type} {M : List (Addr × κ)} (h : (M.map (·.1)).Nodup) {e : Addr} {k k' : κ} (h1 : (e, k) ∈ M) (h2 : (e, k') ∈ M) : k = k' := by
  induction M with
  | nil => exact absurd h1 List.not_mem_nil
  | cons p M ih =>
    simp only [List.map_cons, List.nodup_cons] at h
    rcases List.mem_cons.1 h1 with e1 | h1 <;> rcases List.mem_cons.1 h2 with e2 | h2
    · rw [← e1] at e2; exact ((Prod.mk.inj e2).2).symm
    · exact absurd (by rw [← e1]; exact mem_fst h2) h.1
    · exact absurd (by rw [← e2]; exact mem_fst h1) h.1
    · exact ih h.2 h1 h2

/-- Right answers on entries with distinct keys are those of a finite map, and keys stay distinct. -/
theorem right_map {κ : Type} [DecidableEq κ] {M : List (Addr × κ)} (hn : (M.map (·.1)).Nodup) (hu : (M.map (·.2)).Nodup) {nomem : Prop} {op : Op κ} (hop : NoAppend op)
    {code : Int} {node : Option Addr} (h : Right M nomem op code node) :
    ((after M op code node).map (·.2)).Nodup ∧ MapSpec (assoc M) nomem op code node (assoc (after M op code node)) := by
  have repl : ∀ n k e, (e, k) ∈ M → ((M.map fun p => if p.1 = e then (n, k) else p).map (·.2)).Nodup ∧
      assoc (M.map fun p => if p.1 = e then (n, k) else p) = put (assoc M) k (some n) := by
    intro n k e he
    have e2 : (M.map fun p => if p.1 = e then (n, k) else p).map (·.2) = M.map (·.2) := by
      rw [List.map_map]
      apply List.map_congr_left
      rintro ⟨a, b⟩ hp
      simp only [Function.comp_apply]
      split
      · next hae => subst hae; exact pair_unique hn he hp
      · rfl
    refine ⟨by rw [e2]; exact hu, assoc_ext (by rw [e2]; exact hu) _ (fun k' e' => ?_)⟩
    rw [put]
    constructor
    · intro hm
      obtain ⟨⟨a, b⟩, hp, hpe⟩ := List.mem_map.1 hm
      dsimp only at hpe
      split at hpe
      · obtain ⟨rfl, rfl⟩ := Prod.mk.inj hpe
        rw [if_pos rfl]
      · next hae =>
        obtain ⟨rfl, rfl⟩ := Prod.mk.inj hpe
        rw [if_neg, assoc_iff hu]
        · exact hp
        · intro hbk
          subst hbk
          have h1 := (assoc_iff hu b a).2 hp
          have h2 := (assoc_iff hu b e).2 he
          rw [h1, Option.some.injEq] at h2
          exact hae h2
    · intro hm
      split at hm
      · next hk =>
        obtain rfl := Option.some.inj hm
        subst hk
        exact List.mem_map.2 ⟨(e, k'), he, if_pos rfl⟩
      · next hk =>
        rw [assoc_iff hu] at hm
        refine List.mem_map.2 ⟨(e', k'), hm, if_neg ?_⟩
        intro hee
        simp only at hee
        subst hee
        exact hk (pair_unique hn hm he)
  have addn : ∀ n k, (∀ e, (e, k) ∉ M) → (((n, k) :: M).map (·.2)).Nodup ∧ assoc ((n, k) :: M) = put (assoc M) k (some n) := by
    intro n k hk
    have hu' : (((n, k) :: M).map (·.2)).Nodup := by
      rw [List.map_cons, List.nodup_cons]
      refine ⟨fun hm => ?_, hu⟩
      obtain ⟨⟨a, b⟩, hp, rfl⟩ := List.mem_map.1 hm
      exact hk a hp
    refine ⟨hu', assoc_ext hu' _ (fun k' e' => ?_)⟩
    rw [put, List.mem_cons, Prod.mk.injEq]
    split
    · next h =>
      subst h
      rw [Option.some.injEq]
      constructor
      · rintro (⟨h, -⟩ | h)
        · exact h.symm
        · exact absurd h (hk e')
      · intro h; exact Or.inl ⟨h.symm, rfl⟩
    · next h =>
      rw [assoc_iff hu]
      constructor
      · rintro (⟨-, h'⟩ | h')
        · exact absurd h' h
        · exact h'
      · exact Or.inr
  cases op with
  | release => exact ⟨by simp [after], h.1, h.2, rfl⟩
  | find k =>
    obtain ⟨h1, h2⟩ := h
    refine ⟨hu, h1, ?_, rfl⟩
    rcases h2 with ⟨e, he, rfl⟩ | ⟨he, rfl⟩
    · exact ((assoc_iff hu k e).2 he).symm
    · exact ((assoc_none k).2 he).symm
  | del k =>
    rcases h with ⟨e, he, rfl, rfl⟩ | ⟨he, rfl, rfl⟩
    · have e1 : after M (.del k) 0 (some e) = M.filter fun p => some p.1 ≠ some e := rfl
      have hu' : ((M.filter fun p => some p.1 ≠ some e).map (·.2)).Nodup := (List.filter_sublist.map _).nodup hu
      rw [e1]
      refine ⟨hu', ((assoc_iff hu k e).2 he).symm, ?_⟩
      rw [if_pos (by rw [(assoc_iff hu k e).2 he]; rfl)]
      refine ⟨rfl, assoc_ext hu' _ (fun k' e' => ?_)⟩
      rw [List.mem_filter, put]
      simp only [ne_eq, Option.some.injEq, decide_eq_true_eq]
      split
      · next hk =>
        subst hk
        constructor
        · rintro ⟨h1, h2⟩
          have := (assoc_iff hu k' e').2 h1
          rw [(assoc_iff hu k' e).2 he, Option.some.injEq] at this
          exact absurd this.symm h2
        · intro h; simp at h
      · next hk =>
        rw [assoc_iff hu]
        constructor
        · exact fun h => h.1
        · intro h; exact ⟨h, fun hee => hk (pair_unique hn h (by rw [hee]; exact he))⟩
    · refine ⟨hu, ((assoc_none k).2 he).symm, ?_⟩
      rw [if_neg (by rw [(assoc_none k).2 he]; simp)]
      exact ⟨rfl, rfl⟩
  | insert n k st =>
    have hst : st ≠ .append := hop
    simp only [Right, if_neg hst] at h
    rcases h with ⟨e, he, rfl, rfl⟩ | ⟨he, rfl, h⟩
    · have ha := (assoc_iff hu k e).2 he
      have hs : (assoc M k).isSome = true := by rw [ha]; rfl
      obtain ⟨r1, r2⟩ := repl n k e he
      cases st with
      | append => exact absurd rfl hst
      | add => exact ⟨hu, ha.symm, by rw [if_pos hs]; exact ⟨rfl, rfl⟩⟩
      | set => exact ⟨r1, ha.symm, by rw [if_pos hs]; exact ⟨rfl, r2⟩⟩
      | update => exact ⟨r1, ha.symm, by rw [if_pos hs]; exact ⟨rfl, r2⟩⟩
    · have ha := (assoc_none k).2 he
      have hs : ¬(assoc M k).isSome = true := by rw [ha]; simp
      obtain ⟨r1, r2⟩ := addn n k he
      cases st with
      | append => exact absurd rfl hst
      | update =>
        simp only [if_true] at h
        subst h
        exact ⟨hu, ha.symm, by rw [if_neg hs]; exact ⟨rfl, rfl⟩⟩
      | add =>
        simp only [reduceCtorEq, if_false] at h
        rcases h with rfl | ⟨rfl, hm⟩
        · exact ⟨r1, ha.symm, by rw [if_neg hs]; exact Or.inl ⟨rfl, r2⟩⟩
        · exact ⟨hu, ha.symm, by rw [if_neg hs]; exact Or.inr ⟨rfl, hm, rfl⟩⟩
      | set =>
        simp only [reduceCtorEq, if_false] at h
        rcases h with rfl | ⟨rfl, hm⟩
        · exact ⟨r1, ha.symm, by rw [if_neg hs]; exact Or.inl ⟨rfl, r2⟩⟩
        · exact ⟨hu, ha.symm, by rw [if_neg hs]; exact Or.inr ⟨rfl, hm, rfl⟩⟩

theorem reach_unique {κ : Type} [DecidableEq κ] {hash : κ → BitVec 64} {s : Heap} {m : Map} {M : List (Addr × κ)} (h : Reach hash NoAppend s m M) : (M.map (·.2)).Nodup := by
  induction h with
  | init => simp
  | call hr hop ho hf hlen hrun ih =>
    obtain ⟨Bs, hB⟩ := reach_holds hr
    obtain ⟨out, e, hR, -⟩ := call_ok hB ho _ hf hlen
    rw [hrun, Option.some.injEq] at e
    subst e
    exact (right_map hB.nodup ih hop hR).1

/-- C22: without appended duplicates the hash map is a finite map: every answer and every change is that of the map from keys to
nodes, whatever the hash function, the callbacks deciding on growth and the allocation failures. -/
theorem hashmap_finite_map {κ : Type} [DecidableEq κ] {hash : κ → BitVec 64} {s : Heap} {m : Map} {M : List (Addr × κ)} (h : Reach hash NoAppend s m M)
    {ops : Ops κ} {malloc : Nat → Option Addr} {op : Op κ} (hop : NoAppend op) (ho : Owed hash ops malloc m M op) (fuel : Nat) (hf : M.length < fuel) (hlen : M.length + 1 < 2 ^ 64) :
    ∃ out M', Op.run ops malloc fuel s m op = some out ∧ MapSpec (assoc M) (Refuses malloc) op out.code out.node (assoc M') ∧
      Reach hash NoAppend out.heap out.map M' := by
  obtain ⟨Bs, hB⟩ := reach_holds h
  obtain ⟨out, e, hR, -⟩ := call_ok hB ho fuel hf hlen
  exact ⟨out, _, e, (right_map hB.nodup (reach_unique h) hop hR).2, Reach.call h hop ho hf hlen e⟩

/-! Concrete cases: a node at address `16 * k + d` has key `k`; all keys fall into the same bucket. -/

def exOps : Ops Nat where
  hashKey _ := 7
  hashNode _ := 7
  equal n e := (n / 16 : Nat) - (e / 16 : Nat)
  find n k := (n / 16 : Nat) - (k : Nat)
  extend := none
  shrink := none

def exMalloc (bytes : Nat) : Option Addr := if bytes = 128 then some 4096 else none

def exOwed (n k : Nat) (st : Strategy) (hn : n = 16 * k) (hk : 1 ≤ k ∧ k < 100) : Owed (fun _ : Nat => 7) exOps exMalloc init [] (.insert n k st) := by
  refine ⟨fun _ => rfl, fun _ _ h => absurd h List.not_mem_nil, fun _ _ h => absurd h List.not_mem_nil, ?_, ?_⟩
  · intro n' k' st' e
    cases e
    have h0 : n ≠ 0 := by omega
    exact ⟨h0, by simp [live, init], rfl, fun _ _ h => absurd h List.not_mem_nil⟩
  · intro bytes q e
    rw [exMalloc] at e
    split at e
    · next hb =>
      simp only [Option.some.injEq] at e
      subst e hb
      refine ⟨by decide, by decide, fun a ha => ?_⟩
      simp only [live, init, Op.fresh, List.map_nil, List.range_zero, List.nil_append, List.mem_singleton] at ha
      have : n < 4096 := by omega
      rw [ha]
      exact Or.inl this
    · simp at e

/-- A map with one entry is reached, and the next calls answer as a map with that entry should. -/
example : ∃ s m, Reach (fun _ : Nat => 7) NoAppend s m [(48, 3)] ∧ m.used = 1 ∧ find exOps 5 s m 3 = some 48 ∧ find exOps 5 s m 4 = some 0 ∧
    (insert exOps exMalloc 5 s m 50 .add).map (fun o => (o.code, o.node)) = some (-17, some 48) ∧
    (insert exOps exMalloc 5 s m 50 .set).map (fun o => (o.code, o.node)) = some (0, some 48) ∧
    (insert exOps exMalloc 5 s m 66 .update).map (fun o => (o.code, o.node)) = some (-2, none) ∧
    (del exOps exMalloc 5 s m 3).map (fun o => (o.code, o.node, o.map.used)) = some (0, some 48, 0) := by
  have hr : ∃ out, Op.run exOps exMalloc 5 ⟨fun _ => 0, fun _ => 0⟩ init (.insert 48 3 .add) = some out ∧ out.code = 0 ∧ out.node = none ∧ out.map.used = 1 ∧
    find exOps 5 out.heap out.map 3 = some 48 ∧ find exOps 5 out.heap out.map 4 = some 0 ∧
    (insert exOps exMalloc 5 out.heap out.map 50 .add).map (fun o => (o.code, o.node)) = some (-17, some 48) ∧
    (insert exOps exMalloc 5 out.heap out.map 50 .set).map (fun o => (o.code, o.node)) = some (0, some 48) ∧
    (insert exOps exMalloc 5 out.heap out.map 66 .update).map (fun o => (o.code, o.node)) = some (-2, none) ∧
    (del exOps exMalloc 5 out.heap out.map 3).map (fun o => (o.code, o.node, o.map.used)) = some (0, some 48, 0) := by
    refine ⟨(Op.run exOps exMalloc 5 ⟨fun _ => 0, fun _ => 0⟩ init (.insert 48 3 .add)).get (by decide +kernel), (Option.some_get _).symm, ?_⟩
    decide +kernel
  obtain ⟨out, e, hc, hn, rest⟩ := hr
  have := Reach.call (P := NoAppend) Reach.init (by simp [NoAppend]) (exOwed 48 3 .add rfl (by omega)) (fuel := 5) (by decide) (by simp) e
  rw [hc, hn] at this
  exact ⟨out.heap, out.map, this, rest⟩

/-- Without memory nothing is inserted and the map stays usable. -/
example : (insert exOps (fun _ => none) 5 ⟨fun _ => 0, fun _ => 0⟩ init 48 .add).map (fun o => (o.code, o.map)) = some (-12, init) := by decide +kernel

/-- With duplicates the property leaves open which of them is found, and the code makes use of that: appending enough other entries
moves the buckets and reverses the order of the duplicates in theirs. Here three nodes carry key 0; node 3 is found first, and after
a rehash to the next size node 1. -/
def dupOps : Ops Nat where
  hashKey k := BitVec.ofNat 64 k
  hashNode n := if n ≤ 3 then 0 else BitVec.ofNat 64 n
  equal n e := if n = e then 0 else 1
  find n k := if n ≤ 3 ∧ k = 0 ∨ n > 3 ∧ n = k then 0 else 1
  extend := some fun m => m.used == 3 && m.bits == 4
  shrink := none

def dupRun (n : Nat) : Option (Heap × Map) :=
  forN n (fun i s => (insert dupOps (fun bytes => some (bytes * 1000)) 20 s.1 s.2 (i + 1) .append).map fun o => (o.heap, o.map)) (⟨fun _ => 0, fun _ => 0⟩, init)

theorem duplicate_order_not_kept : (dupRun 3).bind (fun s => find dupOps 20 s.1 s.2 0) = some 3 ∧ (dupRun 4).bind (fun s => find dupOps 20 s.1 s.2 0) = some 1 := by
  decide +kernel

end Bfdev.Hashmap

import Verif.Hashtbl.Spec
import Verif.Hashmap.Props
/-!
Stand-alone hash tables.
-/
namespace Bfdev.Hashtbl
open Bfdev.Dlist (Addr Heap)
open Bfdev.Hlist (World Step step_sound_partial IsChain)
open Bfdev.Hashmap (rows rows_split slot slot_ok masked_ok push tblAdd tblAdd_ok tblInit tblInit_ok mem_rows_flatten world_split)

def tbl (b : Nat) (M : List (Addr × BitVec 64)) : List (List Addr) := (List.range (2 ^ b)).map (rowOf (2 ^ b) M)

theorem tbl_length (b : Nat) (M : List (Addr × BitVec 64)) : (tbl b M).length = 2 ^ b := by simp [tbl]

theorem tbl_get {b : Nat} {M : List (Addr × BitVec 64)} {i : Nat} (h : i < (tbl b M).length) : (tbl b M)[i] = rowOf (2 ^ b) M i := by simp [tbl]

theorem rowOf_slot {b : Nat} (h1 : 1 ≤ b) (h2 : b ≤ 63) (M : List (Addr × BitVec 64)) (i : Nat) :
    rowOf (2 ^ b) M i = (M.filter fun e => slot (2 ^ b) e.2 == i).map (·.1) := by
  unfold rowOf
  congr 1
  apply List.filter_congr
  intro e _
  rw [(slot_ok b h1 h2 e.2).1]
  by_cases he : slot (2 ^ b) e.2 = i <;> simp [he]

theorem tbl_nil (b : Nat) : tbl b [] = List.replicate (2 ^ b) [] := by
  apply List.ext_getElem
  · simp [tbl]
  · intro i h _
    rw [tbl_get]
    simp [rowOf]

theorem tbl_add {b : Nat} (h1 : 1 ≤ b) (h2 : b ≤ 63) (M : List (Addr × BitVec 64)) (n : Addr) (k : BitVec 64) :
    push (fun _ => k) (2 ^ b) (tbl b M) n = tbl b ((n, k) :: M) := by
  have hs := (slot_ok b h1 h2 k).2
  unfold push
  apply List.ext_getElem
  · rw [List.length_set, tbl_length, tbl_length]
  · intro i h h'
    rw [tbl_length] at h'
    rw [List.getElem_set, tbl_get (M := (n, k) :: M), rowOf_slot h1 h2, List.filter_cons]
    by_cases e : slot (2 ^ b) k = i
    · rw [if_pos e, if_pos (by simpa using e), List.map_cons, List.getElem?_eq_getElem (by rw [tbl_length]; exact hs), Option.getD_some, tbl_get, rowOf_slot h1 h2, e]
    · rw [if_neg e, if_neg (by simpa using e), tbl_get, rowOf_slot h1 h2]

theorem mem_tbl {b : Nat} (h1 : 1 ≤ b) (h2 : b ≤ 63) {M : List (Addr × BitVec 64)} {n : Addr} : n ∈ (tbl b M).flatten ↔ ∃ k, (n, k) ∈ M := by
  rw [List.mem_flatten]
  constructor
  · rintro ⟨l, hl, hn⟩
    obtain ⟨i, hi, rfl⟩ := List.mem_map.1 hl
    obtain ⟨e, he, rfl⟩ := List.mem_map.1 hn
    exact ⟨e.2, (List.mem_filter.1 he).1⟩
  · rintro ⟨k, hk⟩
    refine ⟨_, List.mem_map.2 ⟨slot (2 ^ b) k, List.mem_range.2 (slot_ok b h1 h2 k).2, rfl⟩, ?_⟩
    rw [rowOf_slot h1 h2]
    exact List.mem_map.2 ⟨(n, k), List.mem_filter.2 ⟨hk, by simp⟩, rfl⟩

/-- Deleting a node from the rows. -/
theorem del_ok {s : Heap} {p b : Nat} (h1 : 1 ≤ b) (h2 : b ≤ 63) {M : List (Addr × BitVec 64)} {W : List (List Addr)} (hM : (M.map (·.1)).Nodup)
    (hw : World s (rows p (tbl b M) ++ W)) {n : Addr} {k : BitVec 64} (hk : (n, k) ∈ M) :
    ∃ s', del s n = some s' ∧ World s' (rows p (tbl b (M.filter fun e => e.1 ≠ n)) ++ W) := by
  obtain ⟨A, B, rfl⟩ := List.append_of_mem hk
  have hs := (slot_ok b h1 h2 k).2
  have hi : slot (2 ^ b) k < (tbl b (A ++ (n, k) :: B)).length := by rw [tbl_length]; exact hs
  obtain ⟨R, hp, hq⟩ := rows_split p _ _ hi
  rw [List.map_append, List.map_cons, List.nodup_append] at hM
  have fil : (A ++ (n, k) :: B).filter (fun e => e.1 ≠ n) = A ++ B := by
    have id1 : ∀ (L : List (Addr × BitVec 64)), (∀ e ∈ L, e.1 ≠ n) → L.filter (fun e => e.1 ≠ n) = L := by
      intro L hL
      exact List.filter_eq_self.2 (fun x hx => by simpa using hL x hx)
    rw [List.filter_append, List.filter_cons, if_neg (by simp), id1 A, id1 B]
    · intro e he hh
      exact (List.nodup_cons.1 hM.2.1).1 (List.mem_map.2 ⟨e, he, hh⟩)
    · intro e he hh
      exact hM.2.2 _ (List.mem_map_of_mem he) _ (List.mem_cons_self ..) hh
  have row : ∀ i, rowOf (2 ^ b) (A ++ (n, k) :: B) i = rowOf (2 ^ b) A i ++ (if slot (2 ^ b) k = i then [n] else []) ++ rowOf (2 ^ b) B i := by
    intro i
    rw [rowOf_slot h1 h2, rowOf_slot h1 h2, rowOf_slot h1 h2, List.filter_append, List.filter_cons, List.map_append]
    by_cases e : slot (2 ^ b) k = i
    · rw [if_pos e, if_pos (by simpa using e)]; simp
    · rw [if_neg e, if_neg (by simpa using e)]; simp
  have row' : ∀ i, rowOf (2 ^ b) (A ++ B) i = rowOf (2 ^ b) A i ++ rowOf (2 ^ b) B i := by
    intro i
    rw [rowOf, rowOf, rowOf, List.filter_append, List.map_append]
  rw [fil]
  have e2 : (tbl b (A ++ (n, k) :: B)).set (slot (2 ^ b) k) (rowOf (2 ^ b) A (slot (2 ^ b) k) ++ rowOf (2 ^ b) B (slot (2 ^ b) k)) = tbl b (A ++ B) := by
    apply List.ext_getElem
    · rw [List.length_set, tbl_length, tbl_length]
    · intro i h h'
      rw [List.getElem_set, tbl_get (M := A ++ B), row']
      by_cases e : slot (2 ^ b) k = i
      · rw [if_pos e, e]
      · rw [if_neg e, tbl_get, row, if_neg e]; simp
  have hq := hq (rowOf (2 ^ b) A (slot (2 ^ b) k) ++ rowOf (2 ^ b) B (slot (2 ^ b) k))
  rw [e2] at hq
  rw [tbl_get, row, if_pos rfl] at hp
  have hpw : (rows p (tbl b (A ++ (n, k) :: B)) ++ W).Perm (((p + 8 * slot (2 ^ b) k) :: rowOf (2 ^ b) A (slot (2 ^ b) k) ++ n :: rowOf (2 ^ b) B (slot (2 ^ b) k)) :: (R ++ W)) := by
    have := hp.append_right W
    simpa using this
  obtain ⟨s', e1, w1⟩ := step_sound_partial hw (Step.perm hpw (Step.delInit (x := n)))
  refine ⟨s', e1, Hlist.world_perm ?_ w1⟩
  have := (hq.append_right W).symm
  simpa using this

/-- The table and its nodes. -/
structure Holds (s : Heap) (p b : Nat) (W : List (List Addr)) (M : List (Addr × BitVec 64)) : Prop where
  world : World s (rows p (tbl b M) ++ W)
  nodup : (M.map (·.1)).Nodup

theorem add_ok {s : Heap} {p b : Nat} (h1 : 1 ≤ b) (h2 : b ≤ 63) {M : List (Addr × BitVec 64)} {W : List (List Addr)} (h : Holds s p b W M)
    {n : Addr} (k : BitVec 64) (h0 : n ≠ 0) (hh : ∀ i, i < 2 ^ b → n ≠ p + 8 * i) (hm : ∀ e ∈ M, e.1 ≠ n) (hW : n ∉ W.flatten) :
    ∃ s', tblAdd s p (2 ^ b) n k = some s' ∧ Holds s' p b W ((n, k) :: M) := by
  obtain ⟨s', e, w⟩ := tblAdd_ok h1 h2 (tbl_length b M) h.world h0 (fun hn => by
    rw [List.flatten_append, List.mem_append, mem_rows_flatten, mem_tbl h1 h2, tbl_length] at hn
    rcases hn with (⟨k', hk'⟩ | ⟨i, hi, e⟩) | hn
    · exact hm _ hk' rfl
    · exact hh i hi e
    · exact hW hn) (fun _ => k)
  rw [tbl_add h1 h2] at w
  refine ⟨s', e, w, ?_⟩
  rw [List.map_cons, List.nodup_cons]
  refine ⟨fun hn => ?_, h.nodup⟩
  obtain ⟨e', he', e''⟩ := List.mem_map.1 hn
  exact hm e' he' e''

theorem run_ok {p b : Nat} (h1 : 1 ≤ b) (h2 : b ≤ 63) {W : List (List Addr)} (ops : List Op) : ∀ {s : Heap} {M : List (Addr × BitVec 64)},
    Holds s p b W M → Legal p (2 ^ b) W M ops → ∃ s', runAll p (2 ^ b) s ops = some s' ∧ Holds s' p b W (ops.foldl Op.apply M) := by
  induction ops with
  | nil => intro s M h _; exact ⟨s, rfl, h⟩
  | cons op ops ih =>
    intro s M h hl
    cases op with
    | add n k =>
      obtain ⟨l1, l2, l3, l4, l5⟩ := hl
      obtain ⟨s1, e1, g1⟩ := add_ok h1 h2 h k l1 l2 l3 l4
      obtain ⟨s2, e2, g2⟩ := ih g1 l5
      exact ⟨s2, by rw [runAll, Op.run, e1, Option.bind_some, e2], g2⟩
    | del n =>
      obtain ⟨⟨k, hk⟩, l2⟩ := hl
      obtain ⟨s1, e1, g1⟩ := del_ok h1 h2 h.nodup h.world hk
      have g1' : Holds s1 p b W ((Op.del n).apply M) := ⟨g1, (List.filter_sublist.map _).nodup h.nodup⟩
      obtain ⟨s2, e2, g2⟩ := ih g1' l2
      exact ⟨s2, by rw [runAll, Op.run, e1, Option.bind_some, e2], g2⟩

theorem Holds.chain {s : Heap} {p b : Nat} {M : List (Addr × BitVec 64)} {W : List (List Addr)} (h : Holds s p b W M) {i : Nat} (hi : i < 2 ^ b) :
    IsChain s ((p + 8 * i) :: rowOf (2 ^ b) M i) ∧ ((p + 8 * i) :: rowOf (2 ^ b) M i).Nodup := by
  have hl : i < (tbl b M).length := by rw [tbl_length]; exact hi
  obtain ⟨R, hp, -⟩ := rows_split p (tbl b M) i hl
  rw [tbl_get] at hp
  have w := (Hlist.world_perm (hp.append_right W) h.world)
  refine ⟨w.chain _ (by simp), ?_⟩
  have := w.nodup
  simp only [List.cons_append, List.flatten_cons] at this
  rw [← List.cons_append, List.nodup_append] at this
  exact this.1

theorem row_length (M : List (Addr × BitVec 64)) (size i : Nat) : (rowOf size M i).length ≤ M.length := by
  rw [rowOf, List.length_map]
  exact List.length_filter_le ..

theorem idx_ok {s : Heap} {p b : Nat} (h2 : b ≤ 63) {M : List (Addr × BitVec 64)} {W : List (List Addr)} (h : Holds s p b W M) {i : Nat}
    (hi : i < 2 ^ b) {fuel : Nat} (hf : M.length < fuel) : forEachIdx fuel s p (2 ^ b) i = some (rowOf (2 ^ b) M i) := by
  rw [forEachIdx, masked_ok b h2 p i hi, Option.bind_some]
  exact Hlist.traversal (h.chain hi).1 fuel (by have := row_length M (2 ^ b) i; omega)

theorem each_ok {s : Heap} {p b : Nat} (h2 : b ≤ 63) {M : List (Addr × BitVec 64)} {W : List (List Addr)} (h : Holds s p b W M)
    {fuel : Nat} (hf : M.length < fuel) : forEach fuel s p (2 ^ b) = some (tbl b M).flatten := by
  obtain ⟨t, h3, h4⟩ := forN_inv (P := fun i l => l = ((List.range i).map (rowOf (2 ^ b) M)).flatten) (2 ^ b)
    (fun index l => (forEachIdx fuel s p (2 ^ b) index).map (l ++ ·)) [] rfl (fun i hi t ht => by
      refine ⟨_, by rw [idx_ok h2 h hi hf, Option.map_some], ?_⟩
      rw [ht, List.range_succ, List.map_append, List.flatten_append]
      simp)
  rw [forEach, h3, h4, tbl]

theorem tbl_perm {b : Nat} (h1 : 1 ≤ b) (h2 : b ≤ 63) (M : List (Addr × BitVec 64)) : (tbl b M).flatten.Perm (M.map (·.1)) := by
  induction M with
  | nil => rw [tbl_nil]; simp
  | cons e M ih =>
    have := Hashmap.push_perm (fun _ => e.2) b h1 h2 (tbl b M) (tbl_length b M) e.1
    rw [tbl_add h1 h2] at this
    exact this.trans (ih.cons _)

theorem emptyLoop_iff (s : Heap) (p : Nat) : ∀ n c, emptyLoop s p n c = true ↔ ∀ i, c ≤ i → i < c + n → Hlist.checkEmpty s (p + 8 * i) = true := by
  intro n
  induction n with
  | zero => intro c; simp [emptyLoop]; omega
  | succ n ih =>
    intro c
    rw [emptyLoop]
    cases hc : Hlist.checkEmpty s (p + 8 * c) with
    | false =>
      simp only [Bool.not_false, if_true, Bool.false_eq_true, false_iff]
      intro h
      have := h c (by omega) (by omega)
      rw [hc] at this
      cases this
    | true =>
      simp only [Bool.not_true, Bool.false_eq_true, if_false]
      rw [ih]
      constructor
      · intro h i h1 h2
        by_cases e : i = c
        · rw [e]; exact hc
        · exact h i (by omega) (by omega)
      · intro h i h1 h2
        exact h i (by omega) (by omega)

theorem empty_ok {s : Heap} {p b : Nat} (h1 : 1 ≤ b) (h2 : b ≤ 63) {M : List (Addr × BitVec 64)} {W : List (List Addr)} (h : Holds s p b W M) :
    empty s p (2 ^ b) = true ↔ M = [] := by
  rw [empty, emptyLoop_iff]
  constructor
  · intro he
    have : (tbl b M).flatten = [] := by
      rw [List.flatten_eq_nil_iff]
      intro l hl
      obtain ⟨i, hi, rfl⟩ := List.mem_map.1 hl
      have hi := List.mem_range.1 hi
      obtain ⟨c1, c2⟩ := h.chain hi
      exact ((Hlist.checks c1 c2).1).1 (he i (by omega) (by omega))
    have hp := (tbl_perm h1 h2 M).symm
    rw [this] at hp
    exact List.map_eq_nil_iff.1 hp.eq_nil
  · rintro rfl i - hi
    obtain ⟨c1, c2⟩ := h.chain (i := i) (by omega)
    exact ((Hlist.checks c1 c2).1).2 (by simp [rowOf])

theorem drainChain_ok {p i : Nat} {W : List (List Addr)} (l : List Addr) : ∀ {s : Heap} {Bs : List (List Addr)} {fuel : Nat} (hi : i < Bs.length), Bs[i] = l →
    World s (rows p Bs ++ W) → l.length < fuel → ∃ s', drainChain fuel s (s.next (p + 8 * i)) = some (s', l) ∧ World s' (rows p (Bs.set i []) ++ W) := by
  induction l with
  | nil =>
    intro s Bs fuel hi hB hw hf
    obtain ⟨f, rfl⟩ : ∃ f, fuel = f + 1 := ⟨fuel - 1, by simp at hf; omega⟩
    obtain ⟨R, hp, -⟩ := rows_split p Bs i hi
    rw [hB] at hp
    have hc := (Hlist.world_perm (hp.append_right W) hw).chain [p + 8 * i] (by simp)
    have h0 : s.next (p + 8 * i) = 0 := hc.2
    refine ⟨s, by rw [drainChain, if_pos h0], ?_⟩
    rw [← hB, List.set_getElem_self]
    exact hw
  | cons x l ih =>
    intro s Bs fuel hi hB hw hf
    obtain ⟨f, rfl⟩ : ∃ f, fuel = f + 1 := ⟨fuel - 1, by simp at hf; omega⟩
    obtain ⟨R, hp, hq⟩ := rows_split p Bs i hi
    rw [hB] at hp
    have hpw : (rows p Bs ++ W).Perm (((p + 8 * i) :: [] ++ x :: l) :: (R ++ W)) := hp.append_right W
    have hc := (Hlist.world_perm hpw hw).chain _ (List.mem_cons_self ..)
    obtain ⟨-, c1, c2, c3, c4⟩ := hc
    obtain ⟨s1, e1, w1⟩ := step_sound_partial hw (Step.perm hpw (Step.delInit (x := x)))
    have w2 : World s1 (rows p (Bs.set i l) ++ W) := by
      refine Hlist.world_perm ?_ w1
      have := ((hq l).append_right W).symm
      simpa using this
    have hi' : i < (Bs.set i l).length := by rw [List.length_set]; exact hi
    have e2 : s1.next (p + 8 * i) = s.next x := by
      have hc' := w1.chain _ (List.mem_cons_self ..)
      have a1 := Hashmap.chain_head (l := l) hc'.2
      rw [a1, Hashmap.chain_head c4]
    obtain ⟨s2, e3, w3⟩ := ih (fuel := f) hi' (by simp) w2 (by simp at hf; omega)
    refine ⟨s2, ?_, by rw [List.set_set] at w3; exact w3⟩
    have e1 : del s x = some s1 := e1
    rw [c1, drainChain, if_neg c2]
    dsimp only
    rw [e1, Option.bind_some, ← e2, e3, Option.map_some]

theorem drain_ok {s : Heap} {p b : Nat} (h2 : b ≤ 63) {M : List (Addr × BitVec 64)} {W : List (List Addr)} (h : Holds s p b W M)
    {fuel : Nat} (hf : M.length < fuel) : ∃ s', drain fuel s p (2 ^ b) = some (s', (tbl b M).flatten) ∧ Holds s' p b W [] := by
  obtain ⟨t, h3, h4, h5⟩ := forN_inv (P := fun i r => r.2 = ((tbl b M).take i).flatten ∧ World r.1 (rows p (List.replicate i [] ++ (tbl b M).drop i) ++ W)) (2 ^ b)
    (fun index r => (Hashmap.masked p (2 ^ b) index).bind fun h => (drainChain fuel r.1 (r.1.next h)).map fun q => (q.1, r.2 ++ q.2)) (s, [])
    ⟨by simp, by simpa using h.world⟩ (fun i hi t ht => by
      obtain ⟨t1, t2⟩ := ht
      have hl : i < (List.replicate i [] ++ (tbl b M).drop i).length := by simp [tbl_length]; omega
      have hg : (List.replicate i [] ++ (tbl b M).drop i)[i] = rowOf (2 ^ b) M i := by
        rw [List.getElem_append_right (by simp)]
        simp only [List.length_replicate, Nat.sub_self, List.getElem_drop, Nat.add_zero]
        rw [tbl_get]
      obtain ⟨s', e1, w1⟩ := drainChain_ok _ hl hg t2 (show _ < fuel by have := row_length M (2 ^ b) i; omega)
      refine ⟨(s', t.2 ++ rowOf (2 ^ b) M i), ?_, ?_, ?_⟩
      · rw [masked_ok b h2 p i hi, Option.bind_some, e1, Option.map_some]
      · have hlt : i < (tbl b M).length := by rw [tbl_length]; exact hi
        rw [List.take_add_one, List.getElem?_eq_getElem hlt, tbl_get, t1]
        simp
      · have hlt : i < (tbl b M).length := by rw [tbl_length]; exact hi
        have : (List.replicate i [] ++ (tbl b M).drop i).set i [] = List.replicate (i + 1) [] ++ (tbl b M).drop (i + 1) := by
          rw [List.set_append_right _ _ (by simp), List.length_replicate, Nat.sub_self, List.drop_eq_getElem_cons hlt, List.set_cons_zero, List.replicate_succ',
            List.append_assoc]
          rfl
        rw [this] at w1
        exact w1)
  have hl : (tbl b M).take (2 ^ b) = tbl b M := List.take_of_length_le (by rw [tbl_length]; exact Nat.le_refl _)
  have hd : (tbl b M).drop (2 ^ b) = [] := List.drop_of_length_le (by rw [tbl_length]; exact Nat.le_refl _)
  rw [hl] at h4
  rw [hd, List.append_nil, ← tbl_nil] at h5
  exact ⟨t.1, by rw [drain, h3, ← h4], h5, by simp⟩

/-- C84. A table of `2 ^ b` heads, initialised in memory that holds nothing of `W`, after any legal history of additions and deletions, whatever the keys:
every operation ends; the iteration over an index visits, newest first, exactly the nodes present whose keys have that index; the iteration over the table
visits every node present exactly once and nothing else; the table is reported empty exactly when no node is present; the removal-safe iteration that deletes
what it visits visits the same nodes and leaves an empty table; the other chains of memory are as before. -/
theorem table_histories {s : Heap} {W : List (List Addr)} (hw : World s W) (p b : Nat) (h1 : 1 ≤ b) (h2 : b ≤ 63) (hp : p ≠ 0)
    (hW : ∀ i, i < 2 ^ b → p + 8 * i ∉ W.flatten) (ops : List Op) (hl : Legal p (2 ^ b) W [] ops) (fuel : Nat) (hf : (ops.foldl Op.apply []).length < fuel) :
    ∃ s0 s', tblInit s p (2 ^ b) = some s0 ∧ runAll p (2 ^ b) s0 ops = some s' ∧ World s' W ∧
      (∀ key, ∃ i, Bloom.hashtblIndex (BitVec.ofNat 64 (2 ^ b)) key = some i ∧
        forEachIdx fuel s' p (2 ^ b) i = some (rowOf (2 ^ b) (ops.foldl Op.apply []) i)) ∧
      (empty s' p (2 ^ b) = true ↔ ops.foldl Op.apply [] = []) ∧
      ∃ L, forEach fuel s' p (2 ^ b) = some L ∧ L.Perm ((ops.foldl Op.apply []).map (·.1)) ∧ L.Nodup ∧
        ∃ s'', drain fuel s' p (2 ^ b) = some (s'', L) ∧ empty s'' p (2 ^ b) = true ∧ forEach fuel s'' p (2 ^ b) = some [] ∧ World s'' W := by
  obtain ⟨s0, e0, w0⟩ := tblInit_ok hw p (2 ^ b) hp hW
  rw [← tbl_nil] at w0
  obtain ⟨s', e1, g⟩ := run_ok h1 h2 ops (⟨w0, by simp⟩ : Holds s0 p b W []) hl
  obtain ⟨s'', e2, g2⟩ := drain_ok h2 g hf
  refine ⟨s0, s', e0, e1, (world_split g.world).2, fun key => ?_, empty_ok h1 h2 g, _, each_ok h2 g hf, tbl_perm h1 h2 _,
    ((tbl_perm h1 h2 _).nodup_iff).2 g.nodup, s'', e2, (empty_ok h1 h2 g2).2 rfl, ?_, (world_split g2.world).2⟩
  · obtain ⟨e3, hs⟩ := slot_ok b h1 h2 key
    exact ⟨_, e3, idx_ok h2 g hs hf⟩
  · rw [each_ok h2 g2 (by simp; omega), tbl_nil]
    simp

/-- C84. Looking a key up by iterating over its index finds every node added with that key and still present. -/
theorem lookup_complete (b : Nat) (M : List (Addr × BitVec 64)) (n : Addr) (key : BitVec 64) (i : Nat)
    (hi : Bloom.hashtblIndex (BitVec.ofNat 64 (2 ^ b)) key = some i) (h : (n, key) ∈ M) : n ∈ rowOf (2 ^ b) M i :=
  List.mem_map.2 ⟨(n, key), List.mem_filter.2 ⟨h, by simpa using hi⟩, rfl⟩

/-- C84. A declaration with a size accepted by the size check has a power of two of heads, at least two, and every power of two from two on is accepted. -/
theorem check_iff (size : Nat) : check size = size ↔ ∃ b, 1 ≤ b ∧ size = 2 ^ b := by
  unfold check
  constructor
  · intro h
    split at h
    · omega
    · next hn =>
      simp only [not_or, Nat.not_lt, ne_eq, Decidable.not_not] at hn
      obtain ⟨h1, h2⟩ := hn
      refine ⟨size.log2, ?_, ?_⟩
      · exact (Nat.le_log2 (by omega)).2 (by omega)
      · have a := Nat.log2_self_le (n := size) (by omega)
        have c := Nat.lt_log2_self (n := size)
        by_cases e : size = 2 ^ size.log2
        · exact e
        · have t1 : size.testBit size.log2 = true := by rw [Nat.testBit_log2 (by omega)]
          have t2 : (size - 1).testBit size.log2 = true := by
            have l : (size - 1).log2 = size.log2 := by
              rw [Nat.log2_eq_iff (by omega)]
              omega
            rw [← l, Nat.testBit_log2 (by omega)]
          have := Nat.testBit_and size (size - 1) size.log2
          rw [h2, t1, t2] at this
          simp at this
  · rintro ⟨b, hb, rfl⟩
    have h2 : 2 ≤ 2 ^ b := by
      calc 2 = 2 ^ 1 := rfl
        _ ≤ 2 ^ b := Nat.pow_le_pow_right (by decide) hb
    rw [if_neg]
    simp only [not_or, Nat.not_lt, ne_eq, Decidable.not_not]
    exact ⟨h2, by rw [Nat.and_two_pow_sub_one_eq_mod]; simp⟩

example : Legal 0x1000 (2 ^ 4) [] [] [.add 0x2000 7#64, .add 0x2010 7#64, .add 0x2020 99#64, .del 0x2010] :=
  ⟨by decide, by decide, by decide, by decide, by decide, by decide, by decide, by decide, by decide, by decide, by decide, by decide, ⟨7#64, by decide⟩, trivial⟩
example : ∃ s0 s', tblInit ⟨fun _ => 0, fun _ => 0⟩ 0x1000 (2 ^ 4) = some s0 ∧
    runAll 0x1000 (2 ^ 4) s0 [.add 0x2000 7#64, .add 0x2010 7#64, .add 0x2020 99#64, .del 0x2010] = some s' ∧ forEach 9 s' 0x1000 (2 ^ 4) = some [0x2000, 0x2020] :=
  ⟨_, _, rfl, rfl, by decide +kernel⟩

end Bfdev.Hashtbl

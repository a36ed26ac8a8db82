import Verif.Ilist.Props
import Verif.Dlist.Iter
/-!
C102, indexed lists: the iteration macros of `include/bfdev/ilist.h` and deletion from inside the removal-safe ones.
-/
namespace Bfdev.Ilist
open Dlist (Addr Ring Links Same ring_frame ring_rotate Start dir order Splits)

/-- `bfdev_ilist_for_each` and its `_reverse`, `_from` and `_continue` variants, ilist.h:138-179, and the `_entry` forms, ilist.h:241-287: the macros of
`list.h` on the node list. -/
def iter (back : Bool) (s : State) (head : Addr) (fuel : Nat) (start : Start) : Option (List Addr) := Dlist.iter back s.nodes head fuel start

/-- The loop of the `_safe` macros, list.h:493-549, with a body that changes both kinds of lists. -/
def safeLoop (back : Bool) (head : Addr) (body : State → Addr → State) : Nat → State → Addr → Addr → Option (List Addr × State)
  | 0, _, _, _ => none
  | fuel + 1, s, pos, tmp =>
    if pos = head then some ([], s)
    else
      let s := body s pos
      (safeLoop back head body fuel s tmp (dir back s.nodes tmp)).map fun r => (pos :: r.1, r.2)

/-- `bfdev_ilist_for_each_safe` and its variants, ilist.h:187-233, and the `_entry` forms, ilist.h:296-347. -/
def iterSafe (back : Bool) (head : Addr) (body : State → Addr → State) (fuel : Nat) (s : State) : Start → Option (List Addr × State)
  | .all => let pos := dir back s.nodes head; safeLoop back head body fuel s pos (dir back s.nodes pos)
  | .from x => safeLoop back head body fuel s x (dir back s.nodes x)
  | .after x => let pos := dir back s.nodes x; safeLoop back head body fuel s pos (dir back s.nodes pos)

/-- A body that deletes, with `bfdev_ilist_del`, the nodes it does not keep. -/
def purge (head : Addr) (keep : Addr → Bool) (s : State) (x : Addr) : State := if keep x then s else del s head x

/-- A node as `bfdev_ilist_node_init` leaves it. -/
def Idle (s : State) (x : Addr) : Prop := s.nodes.next x = x ∧ s.nodes.prev x = x ∧ s.index.next x = x ∧ s.index.prev x = x

/-- No operation of the history is on the head. -/
def Off (head : Addr) : Op → Prop
  | .add x => x ≠ head
  | .del x => x ≠ head

/-- The nodes that are in the list after an operation. -/
def Op.present (l : List Addr) : Op → List Addr
  | .add x => if x ∈ l then l else x :: l
  | .del x => l.erase x

/-- The nodes that were added and not deleted since. -/
def present (ops : List Op) : List Addr := ops.foldl Op.present []

/-! ## Proofs -/

/-- What every operation keeps, whatever the comparison callback answers: the node list is sound, and the index consists of rings of nodes of the list. -/
structure Loose (head : Addr) (s : State) (l : List Addr) : Prop where
  ring : Ring s.nodes (head :: l)
  nodup : (head :: l).Nodup
  inv : (∀ z, s.index.prev (s.index.next z) = z) ∧ ∀ z, s.index.next (s.index.prev z) = z
  idle : ∀ z, z ∉ l → s.index.next z = z
  out : ∀ z, z ≠ head → z ∉ l → Ring s.nodes [z]

theorem loose_fresh (head : Addr) : Loose head fresh [] :=
  ⟨⟨rfl, rfl⟩, by simp, ⟨fun _ => rfl, fun _ => rfl⟩, fun _ _ => rfl, fun _ _ _ => ⟨rfl, rfl⟩⟩

theorem loose_holds {cmp : Addr → Addr → Int} {sep : Addr → Addr → Prop} {head : Addr} {s : State} (h : Loose head s []) : Holds cmp sep head s [] := by
  refine ⟨[], ⟨h.ring, h.nodup, fun h => absurd rfl h, by simp, fun z hz _ => ⟨h.out z hz (by simp), h.idle z (by simp), ?_⟩, List.Pairwise.nil⟩, rfl⟩
  have := h.inv.1 z
  rw [h.idle z (by simp)] at this
  exact this

/-- Where `next` leads from a node of the list is a node of the list. -/
theorem next_mem {head : Addr} {s : State} {l : List Addr} (h : Loose head s l) {w : Addr} (hw : w ∈ l) : s.index.next w ∈ l := by
  by_cases hm : s.index.next w ∈ l
  · exact hm
  · have e := h.idle _ hm
    have := h.inv.1 (s.index.next w)
    rw [e, h.inv.1] at this
    rwa [← this]

theorem inv_insert {t : Dlist.Heap} (h : (∀ z, t.prev (t.next z) = z) ∧ ∀ z, t.next (t.prev z) = z) {w n : Addr} (hn : t.next n = n) (hw : w ≠ n) :
    ((∀ z, (Dlist.addPrev t w n).prev ((Dlist.addPrev t w n).next z) = z) ∧ ∀ z, (Dlist.addPrev t w n).next ((Dlist.addPrev t w n).prev z) = z) ∧
      ∀ z, z ≠ n → z ≠ t.prev w → (Dlist.addPrev t w n).next z = t.next z := by
  obtain ⟨h1, h2⟩ := h
  have hp : t.prev n = n := by have := h1 n; rwa [hn] at this
  have a : t.prev w ≠ n := by intro e; have := h2 w; rw [e, hn] at this; exact hw this.symm
  simp only [Dlist.addPrev, Dlist.insert, Dlist.Heap.setNext, Dlist.Heap.setPrev, Dlist.upd]
  refine ⟨⟨fun z => ?_, fun z => ?_⟩, fun z z1 z2 => by simp [z1, z2]⟩
  · have := h1 z; have := h2 w; grind
  · have := h2 z; have := h1 w; grind

theorem inv_delete {t : Dlist.Heap} (h : (∀ z, t.prev (t.next z) = z) ∧ ∀ z, t.next (t.prev z) = z) (x : Addr) :
    ((∀ z, (Dlist.delInit t x).prev ((Dlist.delInit t x).next z) = z) ∧ ∀ z, (Dlist.delInit t x).next ((Dlist.delInit t x).prev z) = z) ∧
      (Dlist.delInit t x).next x = x ∧ ∀ z, t.next z = z → (Dlist.delInit t x).next z = z := by
  obtain ⟨h1, h2⟩ := h
  simp only [Dlist.delInit, Dlist.headInit, Dlist.deluf, Dlist.Heap.setNext, Dlist.Heap.setPrev, Dlist.upd]
  refine ⟨⟨fun z => ?_, fun z => ?_⟩, by simp, fun z => ?_⟩
  · have := h1 z; have := h2 x; have := h1 x; grind
  · have := h2 z; have := h2 x; have := h1 x; grind
  · have := h2 x; have := h1 x; grind

/-- The loop of `bfdev_ilist_add` comes back to where it started, whatever the callback answers. -/
theorem scan_ends {cmp : Addr → Addr → Int} {head : Addr} {s : State} {l : List Addr} (h : Loose head s l) (first x : Addr) :
    ∀ (fuel : Nat) (w : Addr) (prev : Option Addr) (V : List Addr), (w :: V).Nodup → (∀ v ∈ w :: V, v ∈ l) → first ∈ w :: V →
      (∀ v ∈ w :: V, v ≠ first → ∃ u ∈ V, s.index.next u = v) → l.length < V.length + fuel →
      ∃ n w' prev', scan s head first x cmp fuel w prev = some (n, w', prev') ∧ n ∈ head :: l ∧ w' ∈ l
  | 0, w, prev, V, hnd, hm, _, _, hf => by
    have := (List.nodup_cons.1 hnd).2.length_le_of_subset (l₂ := l) (fun v hv => hm v (List.mem_cons_of_mem _ hv))
    omega
  | fuel + 1, w, prev, V, hnd, hm, hfi, hb, hf => by
    have hw := hm w (by simp)
    unfold scan
    by_cases hc : cmp x w < 0
    · rw [if_pos hc]; exact ⟨_, _, _, rfl, by simp [hw], hw⟩
    · rw [if_neg hc]
      dsimp only
      have hn := next_mem h hw
      by_cases hf' : s.index.next w ≠ first
      · rw [if_pos hf']
        refine scan_ends h first x fuel (s.index.next w) (some w) (w :: V) ?_ ?_ ?_ ?_ ?_
        · refine List.nodup_cons.2 ⟨fun e => ?_, hnd⟩
          obtain ⟨u, hu, e'⟩ := hb _ e hf'
          have e1 := h.inv.1 u
          have e2 := h.inv.1 w
          rw [e'] at e1
          rw [e1] at e2
          rw [e2] at hu
          exact (List.nodup_cons.1 hnd).1 hu
        · intro v hv
          rcases List.mem_cons.1 hv with rfl | hv
          · exact hn
          · exact hm v hv
        · exact List.mem_cons_of_mem _ hfi
        · intro v hv hne
          rcases List.mem_cons.1 hv with rfl | hv
          · exact ⟨w, by simp, rfl⟩
          · obtain ⟨u, hu, e⟩ := hb v hv hne
            exact ⟨u, List.mem_cons_of_mem _ hu, e⟩
        · simp; omega
      · rw [if_neg hf']; exact ⟨_, _, _, rfl, by simp, hn⟩

/-- Inserting a node before some node of the list or at its end. -/
theorem nodes_insert {head : Addr} {s : State} {l : List Addr} (h : Loose head s l) {x n : Addr} (hx : x ≠ head) (hl : x ∉ l) (hn : n ∈ head :: l) :
    ∃ A B, l = A ++ B ∧ Ring (Dlist.addPrev s.nodes n x) (head :: (A ++ x :: B)) ∧ ∀ z, z ∉ head :: (A ++ x :: B) → Same s.nodes (Dlist.addPrev s.nodes n x) z := by
  have key : ∃ A B, l = A ++ B ∧ (B ++ head :: A).head? = some n := by
    rcases List.mem_cons.1 hn with rfl | hn
    · exact ⟨l, [], by simp, rfl⟩
    · obtain ⟨A, B, rfl⟩ := List.append_of_mem hn
      exact ⟨A, n :: B, rfl, rfl⟩
  obtain ⟨A, B, rfl, e⟩ := key
  obtain ⟨r1, r2⟩ := ring_insert (A := head :: A) (B := B) (n := x) h.ring h.nodup (by simpa [hx] using hl) e
  exact ⟨A, B, rfl, r1, r2⟩

/-- Adding a node that is not in the list, with any comparison callback. -/
theorem add_loose (cmp : Addr → Addr → Int) {head : Addr} {s : State} {l : List Addr} (h : Loose head s l) {x : Addr} (hx : x ≠ head) (hl : x ∉ l)
    (fuel : Nat) (hf : l.length < fuel) : ∃ s' A B, add s head x cmp fuel = some s' ∧ l = A ++ B ∧ Loose head s' (A ++ x :: B) := by
  have e1 : Dlist.checkEmpty s.nodes x = true := self_empty (h.out x hx hl)
  have e2 : Dlist.checkEmpty s.index x = true := by simpa [Dlist.checkEmpty] using h.idle x hl
  have build : ∀ (n : Addr) (idx : Dlist.Heap), n ∈ head :: l → ((∀ z, idx.prev (idx.next z) = z) ∧ ∀ z, idx.next (idx.prev z) = z) →
      (∀ z, z ∉ l → z ≠ x → idx.next z = z) → ∃ s' A B, (⟨Dlist.addPrev s.nodes n x, idx⟩ : State) = s' ∧ l = A ++ B ∧ Loose head s' (A ++ x :: B) := by
    intro n idx hn hi hid
    obtain ⟨A, B, rfl, r1, r2⟩ := nodes_insert h hx hl hn
    have hnd := h.nodup
    refine ⟨_, A, B, rfl, rfl, r1, by grind, hi, fun z hz => hid z (by grind) (by grind), fun z hz hzn => ?_⟩
    exact ring_frame (h.out z hz (by grind)) (fun y hy => r2 y (by simp at hy; subst hy; grind))
  unfold add
  rw [e1, e2]
  simp only [Bool.not_true, Bool.or_self, Bool.false_eq_true, if_false]
  by_cases he : headEmpty s head = true
  · rw [if_pos he]
    obtain ⟨s', A, B, rfl, e⟩ := build head s.index (by simp) h.inv (fun z hz _ => h.idle z hz)
    exact ⟨_, A, B, rfl, e⟩
  · rw [if_neg he]
    have hne : l ≠ [] := by intro e; subst e; exact he (self_empty h.ring)
    obtain ⟨f, t, rfl⟩ := List.exists_cons_of_ne_nil hne
    have ef : s.nodes.next head = f := h.ring.1
    obtain ⟨n, w, prev, es, hn, hw⟩ := scan_ends (cmp := cmp) h f x fuel f none [] (by simp) (by simp) (by simp) (by simp) (by simpa using hf)
    rw [ef, es]
    dsimp only
    by_cases hd : leads cmp x prev = true
    · rw [if_pos hd]
      obtain ⟨i1, i2⟩ := inv_insert h.inv (h.idle x hl) (w := w) (n := x) (fun e => hl (e ▸ hw))
      obtain ⟨s', A, B, rfl, e⟩ := build n (Dlist.addPrev s.index w x) hn i1 (fun z hz hzx => by
        rw [i2 z hzx ?_]
        · exact h.idle z hz
        · intro e
          have e3 := h.inv.2 w
          rw [← e, h.idle z hz] at e3
          exact hz (e3 ▸ hw))
      exact ⟨_, A, B, rfl, e⟩
    · rw [if_neg hd]
      obtain ⟨s', A, B, rfl, e⟩ := build n s.index hn h.inv (fun z hz _ => h.idle z hz)
      exact ⟨_, A, B, rfl, e⟩

/-- Deleting any node of the list. -/
theorem del_loose {head x : Addr} {s : State} {A B : List Addr} (h : Loose head s (A ++ x :: B)) : Loose head (del s head x) (A ++ B) := by
  have hnd := h.nodup
  obtain ⟨n1, n2, n3⟩ := ring_delInit (A := head :: A) (B := B) (x := x) h.ring hnd (by simp)
  have hi : delIndex s head x = Dlist.delInit s.index x ∨ delIndex s head x = s.index ∧ s.index.next x = x := by
    unfold delIndex
    by_cases e : nodeEmpty s x = true
    · exact Or.inr ⟨by rw [if_pos e], by simpa [nodeEmpty, Dlist.checkEmpty] using e⟩
    · rw [if_neg e, if_neg]
      · exact Or.inl rfl
      · rintro ⟨-, e'⟩
        have e' : s.index.next (s.index.next x) = s.index.next x := by simpa [nodeEmpty, Dlist.checkEmpty] using e'
        have := h.inv.1 (s.index.next x)
        rw [e', h.inv.1] at this
        exact e (by simpa [nodeEmpty, Dlist.checkEmpty] using this.symm)
  obtain ⟨d1, d2, d3⟩ := inv_delete h.inv x
  have hout : ∀ z, z ≠ head → z ∉ A ++ B → Ring (Dlist.delInit s.nodes x) [z] := by
    intro z hz hzn
    by_cases hzx : z = x
    · rw [hzx]; exact n2
    · have hz' : z ∉ (head :: A) ++ x :: B := by grind
      exact ring_frame (h.out z hz (by grind)) (fun y hy => n3 y (by simp at hy; subst hy; exact hz'))
  rcases hi with hi | ⟨hi, hx⟩
  · refine ⟨n1, by grind, by show _ ∧ _; simp only [del, hi]; exact d1, fun z hz => ?_, hout⟩
    show (delIndex s head x).next z = z
    rw [hi]
    by_cases hzx : z = x
    · rw [hzx]; exact d2
    · exact d3 z (h.idle z (by grind))
  · refine ⟨n1, by grind, by show _ ∧ _; simp only [del, hi]; exact h.inv, fun z hz => ?_, hout⟩
    show (delIndex s head x).next z = z
    rw [hi]
    by_cases hzx : z = x
    · rw [hzx]; exact hx
    · exact h.idle z (by grind)

/-- Deleting a node that is not in the list changes nothing. -/
theorem del_absent_loose {head x : Addr} {s : State} {l : List Addr} (h : Loose head s l) (hx : x ≠ head) (hl : x ∉ l) : Loose head (del s head x) l := by
  have hn : Ring s.nodes [x] := h.out x hx hl
  have e1 : nodeEmpty s x = true := by simpa [nodeEmpty, Dlist.checkEmpty] using h.idle x hl
  have e2 : ∀ z, Same s.nodes (Dlist.delInit s.nodes x) z := by
    intro z
    have a : s.nodes.next x = x := hn.1
    have b : s.nodes.prev x = x := hn.2
    simp only [Same, Dlist.delInit, Dlist.headInit, Dlist.deluf, Dlist.Heap.setNext, Dlist.Heap.setPrev, Dlist.upd]
    grind
  have e3 : delIndex s head x = s.index := by simp [delIndex, e1]
  refine ⟨ring_frame h.ring fun z _ => e2 z, h.nodup, ?_, ?_, fun z hz hzn => ring_frame (h.out z hz hzn) fun z _ => e2 z⟩
  · simp only [del, e3]; exact h.inv
  · simp only [del, e3]; exact h.idle

theorem run_loose (cmp : Addr → Addr → Int) {head : Addr} : ∀ (ops : List Op) (s : State) (l : List Addr) (P : List Addr), Loose head s l → l.Perm P →
    (∀ op ∈ ops, Off head op) → ∀ fuel, l.length + ops.length < fuel →
    ∃ s' l', runAll cmp head fuel s ops = some s' ∧ Loose head s' l' ∧ l'.length ≤ l.length + ops.length ∧
      l'.Perm (ops.foldl Op.present P)
  | [], s, l, P, h, hp, _, fuel, _ => ⟨s, l, rfl, h, by simp, hp⟩
  | op :: ops, s, l, P, h, hp, ho, fuel, hf => by
    have hoff := ho op (by simp)
    have hP : P.Nodup := hp.nodup_iff.1 (List.nodup_cons.1 h.nodup).2
    have step : ∃ s1 l1, op.run cmp head fuel s = some s1 ∧ Loose head s1 l1 ∧ l1.length ≤ l.length + 1 ∧
        l1.Perm (op.present P) := by
      cases op with
      | add x =>
        have hoff : x ≠ head := hoff
        simp only [Op.run]
        by_cases hx : x ∈ l
        · refine ⟨s, l, ?_, h, by omega, by simp only [Op.present]; rw [if_pos (hp.mem_iff.1 hx)]; exact hp⟩
          obtain ⟨A, B, rfl⟩ := List.append_of_mem hx
          have : Dlist.checkEmpty s.nodes x = false := ring_not_self (A := head :: A) (B := B) h.ring h.nodup (by simp)
          simp [add, this]
        · obtain ⟨s', A, B, e, rfl, h'⟩ := add_loose cmp h hoff hx fuel (by simp at hf ⊢; omega)
          refine ⟨s', _, e, h', by simp; omega, ?_⟩
          simp only [Op.present]
          rw [if_neg (fun e => hx (hp.mem_iff.2 e))]
          exact List.perm_middle.trans (hp.cons x)
      | del x =>
        have hoff : x ≠ head := hoff
        simp only [Op.run]
        by_cases hx : x ∈ l
        · have hn := (List.nodup_cons.1 h.nodup).2
          have hp' := hp.erase x
          obtain ⟨A, B, rfl⟩ := List.append_of_mem hx
          have hxA : x ∉ A := by grind
          rw [List.erase_append_right _ hxA, List.erase_cons_head] at hp'
          exact ⟨_, A ++ B, rfl, del_loose h, by simp; omega, hp'⟩
        · refine ⟨_, l, rfl, del_absent_loose h hoff hx, by omega, ?_⟩
          show l.Perm (P.erase x)
          rw [List.erase_of_not_mem (fun e => hx (hp.mem_iff.2 e))]
          exact hp
    obtain ⟨s1, l1, e1, h1, hl1, hp1⟩ := step
    obtain ⟨s2, l2, e2, h2, hl2, hp2⟩ := run_loose cmp ops s1 l1 _ h1 hp1 (fun o m => ho o (List.mem_cons_of_mem _ m)) fuel (by simp at hf; omega)
    refine ⟨s2, l2, ?_, h2, by simp; omega, hp2⟩
    simp only [runAll, e1]
    exact e2

theorem purge_loose {back : Bool} {head : Addr} {keep : Addr → Bool} {s : State} {p q : List Addr} {x : Addr} (h : Loose head s (order back (p ++ x :: q))) :
    Loose head (purge head keep s x) (order back ((p ++ if keep x then [x] else []) ++ q)) := by
  cases hk : keep x
  · obtain ⟨l, r, e1, e2⟩ := Dlist.order_middle back p x q
    simp only [purge, hk, Bool.false_eq_true, if_false, List.append_nil]
    rw [e1] at h
    rw [e2]
    exact del_loose h
  · simpa [purge, hk] using h

theorem dir_next {back : Bool} {head : Addr} {s : State} {p q : List Addr} {x : Addr} (h : Loose head s (order back (p ++ x :: q))) :
    dir back s.nodes x = q.headD head := by
  have hv := Dlist.ring_view (back := back) h.ring
  rw [Dlist.order_order] at hv
  rw [Dlist.dir_eq]
  exact Dlist.ring_step hv

theorem safeLoop_ok {back : Bool} {head : Addr} {keep : Addr → Bool} : ∀ (q p : List Addr) (s : State) (fuel : Nat), Loose head s (order back (p ++ q)) → q.length < fuel →
    ∃ s', safeLoop back head (purge head keep) fuel s (q.headD head) (dir back s.nodes (q.headD head)) = some (q, s') ∧ Loose head s' (order back (p ++ q.filter keep))
  | [], p, s, fuel + 1, h, _ => ⟨s, by simp [safeLoop], by simpa using h⟩
  | x :: q, p, s, fuel + 1, h, hf => by
    have hx : x ≠ head := by
      intro e
      have := h.nodup
      have hm : x ∈ order back (p ++ x :: q) := (Dlist.order_mem back _ _).2 (by simp)
      rw [e] at hm
      rw [e] at this
      exact (List.nodup_cons.1 this).1 hm
    have e := dir_next h
    obtain ⟨s', h1, h2⟩ := safeLoop_ok q (p ++ if keep x then [x] else []) (purge head keep s x) fuel (purge_loose h) (by simpa using hf)
    refine ⟨s', ?_, ?_⟩
    · simp only [safeLoop, List.headD_cons, if_neg hx, e]
      rw [h1]
      rfl
    · cases hk : keep x <;> simp [hk] at h2 ⊢ <;> exact h2

theorem iterSafe_ok {back : Bool} {head : Addr} {keep : Addr → Bool} {s : State} {l p q : List Addr} {start : Start} (h : Loose head s l)
    (hs : Splits (order back l) start p q) (fuel : Nat) (hf : l.length < fuel) :
    ∃ s', iterSafe back head (purge head keep) fuel s start = some (q, s') ∧ Loose head s' (order back (p ++ q.filter keep)) := by
  have hl := Dlist.order_length back l
  have hpq := Dlist.splits_append hs
  have h' : Loose head s (order back (p ++ q)) := by rw [hpq, Dlist.order_order]; exact h
  have hlen : p.length + q.length = l.length := by rw [← hl, ← hpq, List.length_append]
  have hv := Dlist.ring_view (back := back) h'.ring
  rw [Dlist.order_order] at hv
  generalize order back l = ys at hs hl hpq
  cases hs with
  | all =>
    simp only [iterSafe]
    have e : dir back s.nodes head = q.headD head := by rw [Dlist.dir_eq]; exact Dlist.ring_first hv
    rw [e]
    exact safeLoop_ok q [] s fuel h' (by omega)
  | @«from» p x q =>
    simp only [iterSafe]
    exact safeLoop_ok (x :: q) p s fuel h' (by omega)
  | @after p x q =>
    simp only [iterSafe]
    have e : dir back s.nodes x = q.headD head := by rw [Dlist.dir_eq]; exact Dlist.ring_step (p := p) (by simpa using hv)
    rw [e]
    exact safeLoop_ok q (p ++ [x]) s fuel h' (by omega)

theorem loose_idle {head : Addr} {s : State} {l : List Addr} (h : Loose head s l) {x : Addr} (hx : x ≠ head) (hl : x ∉ l) : Idle s x := by
  have a := h.out x hx hl
  have b := h.idle x hl
  have c := h.inv.1 x
  rw [b] at c
  exact ⟨a.1, a.2, b, c⟩

/-- C102. After every history of additions and deletions, whatever the comparison callback answers, no operation loops forever, and the list holds exactly the
nodes that were added and not deleted since, each once. Every plain iteration macro visits exactly the nodes on its way, each once, in order. The removal-safe
ones do so whatever nodes the body deletes; the list afterwards holds the nodes that were passed or kept, in order, and every node outside it is as newly
initialised, so that it can be added again. -/
theorem ilist_iteration (cmp : Addr → Addr → Int) (head : Addr) (ops : List Op) (ok : ∀ op ∈ ops, Off head op) (fuel : Nat) (hf : ops.length < fuel) :
    ∃ s l, runAll cmp head fuel fresh ops = some s ∧ forEach s head fuel = some l ∧ l.Perm (present ops) ∧ l.Nodup ∧ (∀ x, x ≠ head → x ∉ l → Idle s x) ∧
      ∀ back start p q, Splits (order back l) start p q → iter back s head fuel start = some q ∧ ∀ keep : Addr → Bool, ∃ s',
        iterSafe back head (purge head keep) fuel s start = some (q, s') ∧ forEach s' head fuel = some (order back (p ++ q.filter keep)) ∧
          ∀ x, x ≠ head → x ∉ p ++ q.filter keep → Idle s' x := by
  obtain ⟨s, l, e, hL, hl, hp⟩ := run_loose cmp ops fresh [] [] (loose_fresh head) (List.Perm.refl _) ok fuel (by simpa using hf)
  have hf' : l.length < fuel := by simp at hl; omega
  refine ⟨s, l, e, (Dlist.traversals hL.ring hL.nodup fuel hf').1, hp, (List.nodup_cons.1 hL.nodup).2, fun x => loose_idle hL, fun back start p q hs =>
    ⟨Dlist.iteration hL.ring hL.nodup hs fuel hf', fun keep => ?_⟩⟩
  obtain ⟨s', e', h'⟩ := iterSafe_ok (keep := keep) hL hs fuel hf'
  have hlen : (order back (p ++ q.filter keep)).length < fuel := by
    have a := Dlist.order_length back l
    rw [← Dlist.splits_append hs] at a
    rw [Dlist.order_length]
    have b := List.length_filter_le keep q
    simp only [List.length_append] at a ⊢
    omega
  exact ⟨s', e', (Dlist.traversals h'.ring h'.nodup fuel hlen).1, fun x hx hn => loose_idle h' hx (fun e => hn ((Dlist.order_mem back _ _).1 e))⟩

/-- C102. A loop that deletes every node, after any history and any answers of the callback, leaves a list that answers every further history as a new one
does. -/
theorem ilist_teardown {cmp : Addr → Addr → Int} (h : Order cmp) (cmp₀ : Addr → Addr → Int) (head : Addr) (ops : List Op) (ok : ∀ op ∈ ops, Off head op)
    (back : Bool) (ops' : List Op) (ok' : OkAll cmp head [] ops') (fuel : Nat) (hf : ops.length < fuel) (hf' : ops'.length < fuel) :
    ∃ s l s' s'', runAll cmp₀ head fuel fresh ops = some s ∧ forEach s head fuel = some l ∧
      iterSafe back head (purge head fun _ => false) fuel s .all = some (order back l, s') ∧
      headEmpty s' head = true ∧ runAll cmp head fuel s' ops' = some s'' ∧ forEach s'' head fuel = some (specAll cmp [] ops') := by
  obtain ⟨s, l, e, hL, hl, -⟩ := run_loose cmp₀ ops fresh [] [] (loose_fresh head) (List.Perm.refl _) ok fuel (by simpa using hf)
  obtain ⟨s', e', h'⟩ := iterSafe_ok (keep := fun _ => false) (back := back) hL Splits.all fuel (by simp at hl; omega)
  have h'' : Loose head s' [] := by
    have e0 : ([] ++ (order back l).filter fun _ => false) = [] := by simp
    rw [e0] at h'
    cases back <;> exact h'
  obtain ⟨s'', e'', hh'', hl''⟩ := runs (sep_order h) (loose_holds h'') ops' ok' fuel (by simpa using hf')
  exact ⟨s, l, s', s'', e, (Dlist.traversals hL.ring hL.nodup fuel (by simp at hl; omega)).1, e', self_empty h''.ring, e'', holds_each hh'' fuel (by simp at hl''; omega)⟩

/-- Nodes 2 and 3 are equal, 4 is larger, and 2 is deleted and added again: the list is out of order, and the loop that deletes 3 and 2 still visits each
node once. -/
example : (∀ op ∈ [Op.add 2, .add 4, .add 3, .del 2, .add 2], Off 1 op) ∧
    ((runAll byKey 1 9 fresh [.add 2, .add 4, .add 3, .del 2, .add 2]).bind fun s =>
      (iterSafe false 1 (purge 1 (· == 4)) 9 s .all).map fun r => (r.1, forEach r.2 1 9)) = some ([3, 4, 2], some [4]) ∧
    present [.add 2, .add 4, .add 3, .del 2, .add 2] = [2, 3, 4] ∧ Splits (order false [3, 4, 2]) .all [] [3, 4, 2] := by
  refine ⟨by simp [Off], by decide +kernel, by decide, Splits.all⟩

end Bfdev.Ilist

import Verif.Skiplist.Props
import Verif.Dlist.Iter
/-!
C103, skip lists: the iteration macros of `include/bfdev/skiplist.h` on any level, and deletion from inside the removal-safe ones.
-/
namespace Bfdev.Skiplist
open Dlist (Start order Splits)

/-- One step from a position on a level: `->next`, or `->prev` in the `_reverse` macros. Stepping from a node that is not on the level (freed, for one) is the
outcome `none`. -/
def hop (back : Bool) (L : List Nat) (p : Option Nat) : Option (Option Nat) := if back then prev L p else (after L p).map (·.head?)

/-- The loop of the plain macros, list.h:557-613. -/
def walk (back : Bool) (L : List Nat) : Nat → Option Nat → Option (List Nat)
  | 0, _ => none
  | _ + 1, none => some []
  | fuel + 1, some x => (hop back L (some x)).bind fun p => (walk back L fuel p).map (x :: ·)

/-- `bfdev_skiplist_for_each`, `_reverse`, `_from`, `_reverse_from`, `_continue`, `_reverse_continue`, skiplist.h:58-99, on the list of a level, collecting
the cursors. -/
def iter (back : Bool) (L : List Nat) (fuel : Nat) : Start → Option (List Nat)
  | .all => (hop back L none).bind (walk back L fuel)
  | .from x => walk back L fuel (some x)
  | .after x => (hop back L (some x)).bind (walk back L fuel)

variable {κ : Type}

/-- The loop of the `_safe` macros, list.h:622-689: the step is `pos = tmp, tmp = tmp->next`, on the lists as the body left them. -/
def safeLoop (back : Bool) (level : Nat) (body : Skip κ → Nat → Option (Skip κ)) : Nat → Skip κ → Option Nat → Option Nat → Option (List Nat × Skip κ)
  | 0, _, _, _ => none
  | _ + 1, s, none, _ => some ([], s)
  | fuel + 1, s, some x, tmp =>
    (body s x).bind fun s => (hop back (s.lv level) tmp).bind fun next => (safeLoop back level body fuel s tmp next).map fun r => (x :: r.1, r.2)

/-- `bfdev_skiplist_for_each_safe`, `_reverse_safe`, `_from_safe`, `_reverse_from_safe`, `_continue_safe`, `_reverse_continue_safe`, skiplist.h:107-153. -/
def iterSafe (back : Bool) (level : Nat) (body : Skip κ → Nat → Option (Skip κ)) (fuel : Nat) (s : Skip κ) (start : Start) : Option (List Nat × Skip κ) :=
  let from_ (pos : Option Nat) := (hop back (s.lv level) pos).bind fun tmp => safeLoop back level body fuel s pos tmp
  match start with
  | .all => (hop back (s.lv level) none).bind from_
  | .from x => from_ (some x)
  | .after x => (hop back (s.lv level) (some x)).bind from_

/-- A body that deletes, with `bfdev_skiplist_delete`, the nodes it does not keep; `c x` is the search function it passes for the node `x`. -/
def purge (c : Nat → κ → Int) (keep : Nat → Bool) (s : Skip κ) (x : Nat) : Option (Skip κ) := if keep x then some s else delete s (c x)

/-! ## Proofs -/

theorem hop_some {back : Bool} {L P Q : List Nat} {x : Nat} (e : order back L = P ++ x :: Q) (hn : L.Nodup) : hop back L (some x) = some Q.head? := by
  cases back with
  | false =>
    have e : L = P ++ x :: Q := e
    subst e
    have hx : x ∉ P := fun h => (List.nodup_append.1 hn).2.2 x h x (by simp) rfl
    simp only [hop, Bool.false_eq_true, if_false, after_mid hx, Option.map_some]
  | true =>
    have e : L.reverse = P ++ x :: Q := e
    have e : L = Q.reverse ++ x :: P.reverse := by rw [← List.reverse_reverse L, e]; simp
    subst e
    have := prev_mid (X := Q.reverse) (Y := x :: P.reverse) hn
    simp only [List.head?_cons, List.getLast?_reverse] at this
    simp only [hop, if_true, this]

theorem hop_none (back : Bool) (L : List Nat) : hop back L none = some (order back L).head? := by
  cases back <;> simp [hop, after, prev, order]

theorem hop_head {back : Bool} {L P Q : List Nat} (e : order back L = P ++ Q) (hn : L.Nodup) : ∃ t, hop back L Q.head? = some t ∧ (Q = [] ∨ t = Q.tail.head?) := by
  cases Q with
  | nil => exact ⟨_, hop_none back L, Or.inl rfl⟩
  | cons x Q => exact ⟨_, hop_some e hn, Or.inr rfl⟩

theorem walk_ok {back : Bool} {L : List Nat} (hn : L.Nodup) : ∀ (Q P : List Nat) (fuel : Nat), order back L = P ++ Q → Q.length < fuel → walk back L fuel Q.head? = some Q
  | [], _, fuel + 1, _, _ => rfl
  | x :: Q, P, fuel + 1, e, hf => by
    rw [List.head?_cons, walk, hop_some e hn, Option.bind_some, walk_ok hn Q (P ++ [x]) fuel (by simpa using e) (by simpa using hf), Option.map_some]

section
variable {cmp : κ → κ → Int} {c : Nat → κ → Int} {keep : Nat → Bool}

/-- What the search functions passed by the body owe: each agrees with the order and singles out the node under the cursor. -/
def Single (cmp : κ → κ → Int) (c : Nat → κ → Int) (keep : Nat → Bool) (s : Skip κ) (q : List Nat) : Prop :=
  ∀ x ∈ q, keep x = false → Agrees cmp (c x) ∧ ∀ y ∈ s.lv 0, c x (s.key y) = 0 ↔ y = x

theorem single_mono {s s' : Skip κ} {q q' : List Nat} (h : Single cmp c keep s q) (hk : s'.key = s.key) (hl : ∀ y ∈ s'.lv 0, y ∈ s.lv 0) (hq : ∀ x ∈ q', x ∈ q) :
    Single cmp c keep s' q' := fun x hx hk' => by
  obtain ⟨h1, h2⟩ := h x (hq x hx) hk'
  exact ⟨h1, fun y hy => by rw [hk]; exact h2 y (hl y hy)⟩

theorem purge_ok {s : Skip κ} {ht : Nat → Nat} (hr : Reach cmp s) (h : Inv cmp s ht) {q : List Nat} (hs : Single cmp c keep s q) {x : Nat} (hx : x ∈ q)
    (hx0 : x ∈ s.lv 0) : ∃ s', purge c keep s x = some s' ∧ Reach cmp s' ∧ Inv cmp s' ht ∧ s'.key = s.key ∧ s'.levels = s.levels ∧
      ∀ k, s'.lv k = if keep x then s.lv k else (s.lv k).erase x := by
  cases hk : keep x with
  | true => exact ⟨s, by simp [purge, hk], hr, h, rfl, rfl, fun k => by simp⟩
  | false =>
    obtain ⟨h1, h2⟩ := hs x hx hk
    obtain ⟨s', e, hi, k1, k2, h3⟩ := delete_ok h h1
    refine ⟨s', by simp [purge, hk, e], Reach.step (op := .delete (c x)) hr h1 e, hi, k1, k2, fun k => ?_⟩
    simp only [Bool.false_eq_true, if_false]
    rcases h3 with ⟨-, h3⟩ | ⟨n, hn, hc, h4, -⟩
    · exact absurd ((h2 x hx0).2 rfl) (h3 x hx0)
    · have : n = x := (h2 n hn).1 hc
      subst this
      rw [hi.lv, h4, F_erase h.nd, ← h.lv]

theorem order_nodup {back : Bool} {L : List Nat} (h : L.Nodup) : (order back L).Nodup := by
  cases back
  · exact h
  · exact (List.reverse_perm L).nodup_iff.2 h

theorem order_erase {back : Bool} {L P Q : List Nat} {x : Nat} (hn : L.Nodup) (e : order back L = P ++ x :: Q) : order back (L.erase x) = P ++ Q := by
  have hn' := order_nodup (back := back) hn
  rw [hn.erase_eq_filter, Dlist.order_filter, ← hn'.erase_eq_filter, e, List.erase_append_right, List.erase_cons_head]
  rw [e] at hn'
  exact fun h => (List.nodup_append.1 hn').2.2 x h x (by simp) rfl

theorem safeLoop_ok {back : Bool} {level : Nat} {ht : Nat → Nat} : ∀ (q p : List Nat) (s : Skip κ) (fuel : Nat) (tmp : Option Nat), Reach cmp s → Inv cmp s ht →
    Single cmp c keep s q → order back (s.lv level) = p ++ q → (q = [] ∨ tmp = q.tail.head?) → q.length < fuel →
    ∃ s', safeLoop back level (purge c keep) fuel s q.head? tmp = some (q, s') ∧ Reach cmp s' ∧ s'.key = s.key ∧ s'.levels = s.levels ∧
      order back (s'.lv level) = p ++ q.filter keep ∧ s'.lv 0 = (s.lv 0).filter fun x => decide (x ∉ q) || keep x
  | [], p, s, fuel + 1, tmp, hr, hi, hs, e, _, _ => by
    refine ⟨s, rfl, hr, rfl, rfl, by simpa using e, ?_⟩
    symm
    apply List.filter_eq_self.2
    intro x _
    simp
  | x :: q, p, s, fuel + 1, tmp, hr, hi, hs, e, ht', hf => by
    have ht' : tmp = q.head? := by
      rcases ht' with h | h
      · cases h
      · exact h
    have hnl : (s.lv level).Nodup := by rw [hi.lv]; exact F_nodup hi.nd
    have hxl : x ∈ s.lv level := (Dlist.order_mem back _ _).1 (by rw [e]; simp)
    have hx0 : x ∈ s.lv 0 := by rw [hi.lv] at hxl; exact (F_mem.1 hxl).1
    obtain ⟨s1, e1, r1, i1, k1, l1, v1⟩ := purge_ok hr hi hs (x := x) (by simp) hx0
    have hn1 : (s1.lv level).Nodup := by rw [i1.lv]; exact F_nodup i1.nd
    have o1 : order back (s1.lv level) = (p ++ if keep x then [x] else []) ++ q := by
      rw [v1]
      cases hk : keep x with
      | true => simpa using e
      | false => simpa using order_erase hnl e
    obtain ⟨t, ht1, ht2⟩ := hop_head o1 hn1
    have hnq : x ∉ q := by
      have := order_nodup (back := back) hnl
      rw [e] at this
      exact (List.nodup_cons.1 (List.nodup_append.1 this).2.1).1
    have hsub : ∀ y ∈ s1.lv 0, y ∈ s.lv 0 := by
      intro y hy
      rw [v1] at hy
      cases hk : keep x with
      | true => rw [hk] at hy; simpa using hy
      | false => rw [hk] at hy; exact List.mem_of_mem_erase (by simpa using hy)
    obtain ⟨s2, e2, r2, k2, l2, o2, v2⟩ := safeLoop_ok q (p ++ if keep x then [x] else []) s1 fuel t r1 i1
      (single_mono hs k1 hsub (fun y hy => by simp [hy])) o1 ht2 (by simpa using hf)
    refine ⟨s2, ?_, r2, k2.trans k1, l2.trans l1, ?_, ?_⟩
    · rw [List.head?_cons, safeLoop, e1, Option.bind_some, ht', ht1, Option.bind_some, e2, Option.map_some]
    · rw [o2]
      cases hk : keep x <;> simp [hk]
    · rw [v2, v1]
      cases hk : keep x with
      | true =>
        simp only [if_true]
        apply List.filter_congr
        intro y _
        by_cases hy : y = x
        · subst hy; simp [hk]
        · simp [hy]
      | false =>
        simp only [Bool.false_eq_true, if_false]
        rw [hi.nd.erase_eq_filter, List.filter_filter]
        apply List.filter_congr
        intro y _
        by_cases hy : y = x
        · subst hy; simp [hk, hnq]
        · simp [hy]

/-- C103 under the guard that the search functions single out the node under the cursor. After any history, on every level: each plain iteration macro visits
exactly the nodes of the level on its way, each once, in order. The removal-safe ones do so whatever nodes the body deletes, and leave a skip list that went
through a legal history, holding exactly the nodes that were not visited or were kept. What is missing: deleting, by key, while several nodes have the key,
see `duplicate_violated`. -/
theorem skiplist_iteration_partial (ho : Order cmp) {s : Skip κ} (h : Reach cmp s) {back : Bool} {level : Nat} {start : Start} {p q : List Nat}
    (hs : Splits (order back (s.lv level)) start p q) (hc : Single cmp c keep s q) (fuel : Nat) (hf : (s.lv level).length < fuel) :
    iter back (s.lv level) fuel start = some q ∧ ∃ s', iterSafe back level (purge c keep) fuel s start = some (q, s') ∧ Reach cmp s' ∧
      s'.lv level = order back (p ++ q.filter keep) ∧ s'.lv 0 = (s.lv 0).filter (fun x => decide (x ∉ q) || keep x) ∧
      s'.items = ((s.lv 0).filter (fun x => decide (x ∉ q) || keep x)).map s.key := by
  obtain ⟨ht, hi⟩ := Inv.reach ho h
  have hn : (s.lv level).Nodup := by rw [hi.lv]; exact F_nodup hi.nd
  have hpq := Dlist.splits_append hs
  have hl := Dlist.order_length back (s.lv level)
  have hlen : q.length < fuel := by
    rw [← hpq, List.length_append] at hl
    omega
  obtain ⟨t, t1, t2⟩ := hop_head hpq.symm hn
  obtain ⟨s', e, r, k, -, o, v⟩ := safeLoop_ok q p s fuel t h hi hc hpq.symm t2 hlen
  have hw := walk_ok hn q p fuel hpq.symm hlen
  have hfin : Reach cmp s' ∧ s'.lv level = order back (p ++ q.filter keep) ∧ s'.lv 0 = (s.lv 0).filter (fun x => decide (x ∉ q) || keep x) ∧
      s'.items = ((s.lv 0).filter (fun x => decide (x ∉ q) || keep x)).map s.key := by
    refine ⟨r, by rw [← o, Dlist.order_order], v, by unfold Skip.items; rw [v, k]⟩
  generalize hys : order back (s.lv level) = ys at hs hpq hl
  cases hs with
  | all =>
    refine ⟨?_, s', ?_, hfin⟩
    · simp only [iter, hop_none, hys, Option.bind_some]; exact hw
    · simp only [iterSafe, hop_none, hys, Option.bind_some, t1]; exact e
  | @«from» p x q =>
    refine ⟨hw, s', ?_, hfin⟩
    simp only [List.head?_cons] at t1 e
    simp only [iterSafe, t1, Option.bind_some]
    exact e
  | @after p x q =>
    have hx := hop_some hys hn
    refine ⟨?_, s', ?_, hfin⟩
    · simp only [iter, hx, Option.bind_some]; exact hw
    · simp only [iterSafe, hx, Option.bind_some, t1]; exact e

end

/-- Three insertions; the second node with key 5 is on two levels. -/
def twins : Option (Skip Int) := (create 4 (fun _ => 0)).bind (fill [(5, 1, 100), (3, 2, 200), (9, 1, 300), (5, 0, 400)])

/-- C103 fails: two nodes have the key 5. The loop deletes its cursor, node 400, by that key, and what is deleted and freed is the node behind it, where the
loop is going next. -/
theorem duplicate_violated : ∃ s : Skip Int, Reach icmp s ∧ iter false (s.lv 0) 9 .all = some [200, 400, 100, 300] ∧
    iterSafe false 0 (purge (fun x k => k - s.key x) (· != 400)) 9 s .all = none := by
  have c : (twins.map fun s => (iter false (s.lv 0) 9 .all, (iterSafe false 0 (purge (fun x k => k - s.key x) (· != 400)) 9 s .all).isSome)) =
      some (some [200, 400, 100, 300], false) := by decide +kernel
  obtain ⟨s, e1, e2⟩ := Option.map_eq_some_iff.1 c
  obtain ⟨s0, e3, e4⟩ := Option.bind_eq_some_iff.1 e1
  simp only [Prod.mk.injEq] at e2
  exact ⟨s, fill_reach (.new e3) e4, e2.1, by simpa using e2.2⟩

/-- Deleting nodes 200 and 300, whose keys are unique, backwards on the second level. -/
example : ∃ s : Skip Int, Reach icmp s ∧ Splits (order true (s.lv 1)) .all [] [300, 100, 200] ∧ Single icmp (fun x k => k - s.key x) (· == 100) s [300, 100, 200] ∧
    (iterSafe true 1 (purge (fun x k => k - s.key x) (· == 100)) 9 s .all).map (fun r => (r.1, r.2.lv 0, r.2.lv 1)) = some ([300, 100, 200], [400, 100], [100]) := by
  have c1 : (twins.map fun s => (s.lv 0, s.lv 1)) = some ([200, 400, 100, 300], [200, 100, 300]) := by decide +kernel
  have c2 : (twins.map fun s => [s.key 100, s.key 200, s.key 300, s.key 400]) = some [5, 3, 9, 5] := by decide +kernel
  have c3 : (twins.map fun s => (iterSafe true 1 (purge (fun x k => k - s.key x) (· == 100)) 9 s .all).map (fun r => (r.1, r.2.lv 0, r.2.lv 1))) =
      some (some ([300, 100, 200], [400, 100], [100])) := by decide +kernel
  obtain ⟨s, e1, e2⟩ := Option.map_eq_some_iff.1 c1
  obtain ⟨s0, e3, e4⟩ := Option.bind_eq_some_iff.1 e1
  rw [e1] at c2 c3
  simp only [Option.map_some, Option.some.injEq, List.cons.injEq, and_true] at c2
  simp only [Option.map_some, Option.some.injEq] at c3
  simp only [Prod.mk.injEq] at e2
  obtain ⟨l0, l1⟩ := e2
  obtain ⟨k1, k2, k3, k4⟩ := c2
  refine ⟨s, fill_reach (.new e3) e4, by rw [l1]; exact Splits.all, ?_, c3⟩
  intro x hx hk
  refine ⟨icmp_agrees _, fun y hy => ?_⟩
  rw [l0] at hy
  simp only [List.mem_cons, List.not_mem_nil, or_false] at hx hy
  rcases hx with rfl | rfl | rfl
  · rcases hy with rfl | rfl | rfl | rfl <;> simp [k1, k2, k3, k4]
  · simp at hk
  · rcases hy with rfl | rfl | rfl | rfl <;> simp [k1, k2, k3, k4]

end Bfdev.Skiplist

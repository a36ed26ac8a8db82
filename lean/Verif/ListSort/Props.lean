import Verif.ListSort.Stack
/-!
C11: `bfdev_list_sort` is a stable sort of the nodes of a circular list, restores the links in both directions, and touches nothing else.
-/
namespace Bfdev.ListSort
open Bfdev.Dlist (Addr Heap upd Links Ring Same)

/-- Cutting a ring open before its head. -/
theorem cut_ring {s : Heap} {h : Addr} : ∀ {xs : List Addr} {a : Addr}, Links s a xs h → xs ≠ [] → (a :: xs).Nodup → (∀ x ∈ xs, x ≠ 0) →
    SL (s.setNext (s.prev h) 0) ((s.setNext (s.prev h) 0).next a) xs := by
  intro xs
  induction xs with
  | nil => intro a _ h; exact absurd rfl h
  | cons x xs ih =>
    intro a hl _ hnd h0
    have hpm : s.prev h ∈ x :: xs := Dlist.links_prev_mem hl.2.2
    have hap : a ≠ s.prev h := fun e => absurd (e ▸ hpm) (by nds hnd)
    have e1 : (s.setNext (s.prev h) 0).next a = x := by simp [Heap.setNext, upd, hap, hl.1]
    refine ⟨e1, h0 x (by simp), ?_⟩
    cases xs with
    | nil =>
      have : s.prev h = x := by simpa using hpm
      simp [SL, Heap.setNext, this]
    | cons y t => exact ih hl.2.2 (by simp) (by ndn hnd) (fun z hz => h0 z (by simp [hz]))

theorem PA_length {s : Heap} {q r : Addr} {Ls : List (List Addr)} (h : PA s q Ls r) : Ls.length ≤ Ls.flatten.length := by
  induction Ls generalizing q with
  | nil => simp
  | cons l Ls ih =>
    have := ih h.2.2
    have h1 : 0 < l.length := List.length_pos_iff.2 h.1
    simp only [List.length_cons, List.flatten_cons, List.length_append]
    omega

/-- C11: for every list `xs` hanging off `head` (any length) and every total preorder, sorting ends without touching a NULL pointer,
and leaves a proper ring of exactly the same nodes, in order, in which nodes comparing equal keep their relative order.
Everything outside the list is untouched. -/
theorem list_sort_stable {cmp : Addr → Addr → Int} (hc : TotalPreorder cmp) {s : Heap} {head : Addr} {xs : List Addr}
    (hr : Ring s (head :: xs)) (hnd : (head :: xs).Nodup) (h0 : ∀ x ∈ xs, x ≠ 0) {fuel : Nat} (hf : xs.length < fuel) :
    ∃ s' ys, sort cmp fuel s head = some s' ∧ Ring s' (head :: ys) ∧ ys.Perm xs ∧ ys.Pairwise (fun a b => cmp a b ≤ 0) ∧
      (∀ x, ys.filter (eqv cmp x) = xs.filter (eqv cmp x)) ∧ ∀ z, z ∉ head :: xs → Same s s' z := by
  unfold sort
  simp only
  cases xs with
  | nil =>
    have e1 : s.next head = s.prev head := by rw [hr.1, hr.2]
    rw [if_pos e1]
    exact ⟨s, [], rfl, hr, List.Perm.refl _, List.Pairwise.nil, fun _ => rfl, fun _ _ => ⟨rfl, rfl⟩⟩
  | cons x xs =>
    cases xs with
    | nil =>
      have e1 : s.next head = s.prev head := by rw [hr.1, hr.2.2.2]
      rw [if_pos e1]
      exact ⟨s, [x], rfl, hr, List.Perm.refl _, by simp, fun _ => rfl, fun _ _ => ⟨rfl, rfl⟩⟩
    | cons y t =>
      have hpm : s.prev head ∈ y :: t := Dlist.links_prev_mem hr.2.2.2.2
      have hxp : x ≠ s.prev head := fun e => absurd (e ▸ hpm) (by nds hnd)
      rw [if_neg (by rw [hr.1]; exact hxp)]
      have hsl := cut_ring hr (by simp) hnd h0
      have hhp : head ≠ s.prev head := by
        refine Ne.symm (nd_ne ?_)
        ndm hnd, hpm
      have e2 : (s.setNext (s.prev head) 0).next head = s.next head := by simp [Heap.setNext, upd, hhp]
      rw [e2] at hsl
      obtain ⟨s1, p1, Ls, a1, a2, a3, a4, a5⟩ := sortLoop_ok hc fuel fuel (s.setNext (s.prev head) 0) 0 (s.next head) 0 [] [] (x :: y :: t)
        rfl hsl (by ndn hnd) ⟨by simp, by simp, fun _ => rfl⟩ (by simp) (by decide) (by simp) (by simp)
        (by simp at hf ⊢; omega) hf
      simp only [List.nil_append] at a3
      have hlen := a4 (by simp)
      obtain ⟨m, Ls, rfl⟩ := List.exists_cons_of_ne_nil (l := Ls) (by rintro rfl; simp at hlen)
      have hLs : Ls ≠ [] := by rintro rfl; simp at hlen
      have hp0 := PA_head_ne a2 (by simp)
      obtain ⟨b1, b2, b3⟩ := a2
      simp only [a1, bind, Option.bind, deref, if_neg hp0]
      have hpm1 := a3.perm
      have hlen1 := hpm1.length_eq
      have hlens := PA_length b3
      have hnd1 : (head :: (m :: Ls).flatten).Nodup := ((hpm1.cons head).nodup_iff).2 hnd
      obtain ⟨s2, p2, n2, l2, m2, c1, c2, c3, c4, c5, c6, c7⟩ := collapse_ok hc fuel fuel s1 (s1.prev p1) p1 Ls m (x :: y :: t) b3 hLs b2 b1
        (by ndn hnd1) a3 (by simp only [List.flatten_cons] at hlen1; rw [hlen1]; omega)
        (by simp only [List.flatten_cons, List.length_append] at hlen1; omega)
      rw [c1]
      simp only
      have hp2 : (l2 ++ m2).Perm (x :: y :: t) := List.perm_append_comm.trans (by simpa using c6.perm)
      have hnd2 : (head :: (l2 ++ m2)).Nodup := ((hp2.cons head).nodup_iff).2 hnd
      have hlen2 := hp2.length_eq
      obtain ⟨s3, d1, d2, d3⟩ := finish_ok cmp (fuel := fuel) c2 c4 c3 c5 hnd2 (by rw [List.length_append] at hlen2; omega)
      refine ⟨s3, mg cmp l2 m2, d1, d2, (mg_perm cmp l2 m2).trans hp2, mg_sorted hc (c6.sorted _ (by simp)) (c6.sorted _ (by simp)), fun z => ?_, fun z hz => ?_⟩
      · rw [mg_filter hc z (c6.sorted _ (by simp)) (c6.sorted _ (by simp)), ← c6.stable z]
        simp
      · have h1 : Same s (s.setNext (s.prev head) 0) z := by
          have : z ≠ s.prev head := by
            rintro rfl
            exact hz (by simp only [List.mem_cons] at hpm ⊢; exact Or.inr (Or.inr hpm))
          simp [Same, Heap.setNext, upd, this]
        have h2 : z ∉ x :: y :: t := fun h => hz (List.mem_cons_of_mem _ h)
        refine ((h1.trans (a5 z (by simpa using h2))).trans (c7 z (fun h => h2 (hpm1.mem_iff.1 (by simpa using h))))).trans
          (d3 z (fun h => hz (((hp2.cons head).mem_iff).1 h)))

/-- Equal nodes in original order, as a statement about pairs: a consequence of the filter formulation. -/
theorem stable_pairs {cmp : Addr → Addr → Int} {xs ys : List Addr} (h : ∀ x, ys.filter (eqv cmp x) = xs.filter (eqv cmp x)) {a b : Addr}
    (hab : eqv cmp a b = true) (haa : eqv cmp a a = true) (hs : [a, b].Sublist xs) : [a, b].Sublist ys := by
  have h1 : [a, b].Sublist (xs.filter (eqv cmp a)) := by
    have := hs.filter (eqv cmp a)
    simpa [hab, haa] using this
  rw [← h a] at h1
  exact h1.trans List.filter_sublist

/-! ### Non-vacuity -/

/-- Ring `1 → 5 → 3 → 4 → 2 → 6`, ordered by the node number divided by two. -/
def demo : Heap where
  next := fun a => if a = 1 then 5 else if a = 5 then 3 else if a = 3 then 4 else if a = 4 then 2 else if a = 2 then 6 else 1
  prev := fun a => if a = 5 then 1 else if a = 3 then 5 else if a = 4 then 3 else if a = 2 then 4 else if a = 6 then 2 else 6

def byHalf (a b : Addr) : Int := ((a / 2 : Nat) : Int) - (b / 2 : Nat)

example : TotalPreorder byHalf ∧ Ring demo [1, 5, 3, 4, 2, 6] ∧
    (sort byHalf 6 demo 1).map (fun s => (Dlist.forEach s 1 6, Dlist.forEachReverse s 1 6)) = some (some [3, 2, 5, 4, 6], some [6, 4, 5, 2, 3]) := by
  refine ⟨⟨fun a b => by simp only [byHalf]; omega, fun a b c => by simp only [byHalf]; omega⟩, by simp [Ring, Links, demo], by decide +kernel⟩

end Bfdev.ListSort

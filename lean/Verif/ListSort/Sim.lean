import Verif.ListSort.Count
/-!
One merge with arbitrary answers is a merge with some consistent comparison: no pair of nodes is compared twice.
-/
namespace Bfdev.ListSort
open Bfdev.Dlist (Addr Heap upd Links Ring Same)

/-- The nodes on top of the two lists are compared once: a function of the nodes that gives the same answers exists. -/
theorem mergeLoop_sim (cmp : Nat → Addr → Addr → Int) : ∀ (fuel k : Nat) (s : Heap) (node : Addr) (tail : Option Addr) (n1 n2 : Addr)
    (l1 l2 : List Addr), SL s n1 l1 → SL s n2 l2 → l1 ≠ [] → l2 ≠ [] → (l1 ++ l2).Nodup → (∀ a, tail = some a → a ∉ l1 ++ l2) →
    ∃ (f : Addr → Addr → Int) (k' : Nat), k' < k + l1.length + l2.length ∧ ∀ g : Addr → Addr → Int, (∀ x ∈ l1, ∀ y ∈ l2, g x y = f x y) →
      countMergeLoop cmp fuel k s node tail n1 n2 = (mergeLoop g fuel s node tail n1 n2).map (fun r => (r.1, r.2, k')) := by
  intro fuel
  induction fuel with
  | zero =>
    intro k s node tail n1 n2 l1 l2 _ _ h1 _ _ _
    have := List.length_pos_iff.2 h1
    exact ⟨fun _ _ => 0, k, by omega, fun _ _ => rfl⟩
  | succ fuel ih =>
    intro k s node tail n1 n2 l1 l2 hs1 hs2 hl1 hl2 hnd ht
    obtain ⟨x, l, rfl⟩ := List.exists_cons_of_ne_nil hl1
    obtain ⟨y, r, rfl⟩ := List.exists_cons_of_ne_nil hl2
    obtain ⟨rfl, hx0, hl⟩ := hs1
    obtain ⟨rfl, hy0, hr⟩ := hs2
    have hd1 : deref n1 = some n1 := by simp [deref, hx0]
    have hd2 : deref n2 = some n2 := by simp [deref, hy0]
    simp only [countMergeLoop, mergeLoop, hd1, hd2, bind, Option.bind]
    have htail : ∀ z, z ∈ n1 :: l ++ n2 :: r → tail ≠ some z := fun z hz e => ht z e hz
    by_cases hc : cmp k n1 n2 ≤ 0
    · obtain ⟨s1, m1, e1, hp1, hf1, ht1, hk1⟩ := storeNext_spec s node tail n1
      have hnx : s1.next n1 = s.next n1 := hf1 n1 (htail n1 (by simp))
      have hl' : SL s1 (s1.next n1) l := by rw [hnx]; exact SL_frame hl (fun z hz => hf1 z (htail z (by simp [hz])))
      have hr' : SL s1 n2 (n2 :: r) := SL_frame ⟨rfl, hy0, hr⟩ (fun z hz => hf1 z (htail z (by simp only [List.mem_append]; exact Or.inr hz)))
      by_cases hz : s1.next n1 = 0
      · refine ⟨fun a b => cmp k a b, k + 1, by simp only [List.length_cons]; omega, fun g hg => ?_⟩
        have hg1 : g n1 n2 ≤ 0 := by rw [hg n1 (by simp) n2 (by simp)]; exact hc
        rw [if_pos hc, if_pos hg1, e1]
        dsimp only
        rw [if_pos hz, if_pos hz]
        rfl
      · obtain ⟨f, k', b1, b2⟩ := ih (k + 1) s1 m1 (some n1) (s1.next n1) n2 l (n2 :: r) hl' hr'
          (fun e => hz ((SL_zero hl').2 e)) (by simp) (by ndn hnd) (fun a ha => by cases ha; nds hnd)
        refine ⟨fun a b => if a = n1 then cmp k a b else f a b, k', by simp only [List.length_cons] at b1 ⊢; omega, fun g hg => ?_⟩
        have hg1 : g n1 n2 ≤ 0 := by rw [hg n1 (by simp) n2 (by simp)]; simpa using hc
        rw [if_pos hc, if_pos hg1, e1]
        dsimp only
        rw [if_neg hz, if_neg hz]
        refine b2 g (fun a ha b hb => ?_)
        rw [hg a (by simp [ha]) b hb]
        exact if_neg (show a ≠ n1 from by refine nd_ne ?_; ndm hnd, ha)
    · obtain ⟨s1, m1, e1, hp1, hf1, ht1, hk1⟩ := storeNext_spec s node tail n2
      have hnx : s1.next n2 = s.next n2 := hf1 n2 (htail n2 (by simp))
      have hr' : SL s1 (s1.next n2) r := by rw [hnx]; exact SL_frame hr (fun z hz => hf1 z (htail z (by simp [hz])))
      have hl' : SL s1 n1 (n1 :: l) := SL_frame ⟨rfl, hx0, hl⟩ (fun z hz => hf1 z (htail z (by simp only [List.mem_append]; exact Or.inl hz)))
      by_cases hz : s1.next n2 = 0
      · refine ⟨fun a b => cmp k a b, k + 1, by simp only [List.length_cons]; omega, fun g hg => ?_⟩
        have hg1 : ¬ g n1 n2 ≤ 0 := by rw [hg n1 (by simp) n2 (by simp)]; exact hc
        rw [if_neg hc, if_neg hg1, e1]
        dsimp only
        rw [if_pos hz, if_pos hz]
        rfl
      · obtain ⟨f, k', b1, b2⟩ := ih (k + 1) s1 m1 (some n2) n1 (s1.next n2) (n1 :: l) r hl' hr'
          (by simp) (fun e => hz ((SL_zero hr').2 e)) (by ndn hnd) (fun a ha => by cases ha; nds hnd)
        refine ⟨fun a b => if b = n2 then cmp k a b else f a b, k', by simp only [List.length_cons] at b1 ⊢; omega, fun g hg => ?_⟩
        have hg1 : ¬ g n1 n2 ≤ 0 := by rw [hg n1 (by simp) n2 (by simp)]; simpa using hc
        rw [if_neg hc, if_neg hg1, e1]
        dsimp only
        rw [if_neg hz, if_neg hz]
        refine b2 g (fun a ha b hb => ?_)
        rw [hg a ha b (by simp [hb])]
        exact if_neg (show b ≠ n2 from by refine nd_ne ?_; ndm hnd, hb)

/-- A merge with arbitrary answers leaves the nodes of both lists in some order, and asks less often than there are nodes. -/
theorem countMerge_ok (cmp : Nat → Addr → Addr → Int) {fuel : Nat} (k : Nat) {s : Heap} {n1 n2 : Addr} {l1 l2 : List Addr} (h1 : SL s n1 l1)
    (h2 : SL s n2 l2) (e1 : l1 ≠ []) (e2 : l2 ≠ []) (hnd : (l1 ++ l2).Nodup) (hf : l1.length + l2.length ≤ fuel) :
    ∃ s' h k' m, countMerge cmp fuel k s n1 n2 = some (s', h, k') ∧ s'.prev = s.prev ∧ (∀ z, z ∉ l1 ++ l2 → s'.next z = s.next z) ∧
      SL s' h m ∧ m ≠ [] ∧ m.Perm (l1 ++ l2) ∧ k' < k + l1.length + l2.length := by
  obtain ⟨f, k', a1, a2⟩ := mergeLoop_sim cmp fuel k s 0 none n1 n2 l1 l2 h1 h2 e1 e2 hnd (by simp)
  obtain ⟨s', h, r1, r2, r3, r4⟩ := merge_ok f h1 h2 e1 e2 hnd hf
  refine ⟨s', h, k', mg f l1 l2, ?_, r2, r3, r4, mg_ne_nil f e1, mg_perm f l1 l2, a1⟩
  unfold merge at r1
  rw [countMerge, a2 f (fun _ _ _ _ => rfl), r1]
  rfl

theorem finishLoop_sim (cmp : Nat → Addr → Addr → Int) : ∀ (fuel k : Nat) (s : Heap) (tail n1 n2 : Addr)
    (l1 l2 : List Addr), SL s n1 l1 → SL s n2 l2 → l1 ≠ [] → l2 ≠ [] → (tail :: (l1 ++ l2)).Nodup →
    ∃ (f : Addr → Addr → Int) (k' : Nat), k' < k + l1.length + l2.length ∧ ∀ g : Addr → Addr → Int, (∀ x ∈ l1, ∀ y ∈ l2, g x y = f x y) →
      countFinishLoop cmp fuel k s tail n1 n2 = (finishLoop g fuel s tail n1 n2).map (fun r => (r.1, r.2.1, r.2.2, k')) := by
  intro fuel
  induction fuel with
  | zero =>
    intro k s tail n1 n2 l1 l2 _ _ h1 _ _
    have := List.length_pos_iff.2 h1
    exact ⟨fun _ _ => 0, k, by omega, fun _ _ => rfl⟩
  | succ fuel ih =>
    intro k s tail n1 n2 l1 l2 hs1 hs2 hl1 hl2 hnd
    obtain ⟨x, l, rfl⟩ := List.exists_cons_of_ne_nil hl1
    obtain ⟨y, r, rfl⟩ := List.exists_cons_of_ne_nil hl2
    obtain ⟨rfl, hx0, hl⟩ := hs1
    obtain ⟨rfl, hy0, hr⟩ := hs2
    simp only [countFinishLoop, finishLoop, deref, if_neg hx0, if_neg hy0, bind, Option.bind]
    have step : ∀ v, v ≠ tail → ∀ z, z ≠ tail → ((s.setNext tail v).setPrev v tail).next z = s.next z := by
      intro v hv z hz
      simp [Heap.setNext, Heap.setPrev, upd, hz]
    by_cases hc : cmp k n1 n2 ≤ 0
    · have hne : n1 ≠ tail := by refine nd_ne ?_; nds hnd
      have g1 := step n1 hne
      generalize (s.setNext tail n1).setPrev n1 tail = s1 at g1 ⊢
      have hl' : SL s1 (s1.next n1) l := by rw [g1 n1 hne]; exact SL_frame hl (fun z hz => g1 z (by refine nd_ne ?_; ndm hnd, hz))
      have hr' : SL s1 n2 (n2 :: r) := SL_frame ⟨rfl, hy0, hr⟩ (fun z hz => g1 z (by refine nd_ne ?_; ndm hnd, hz))
      by_cases hz : s1.next n1 = 0
      · refine ⟨fun a b => cmp k a b, k + 1, by simp only [List.length_cons]; omega, fun g hg => ?_⟩
        have hg1 : g n1 n2 ≤ 0 := by rw [hg n1 (by simp) n2 (by simp)]; exact hc
        rw [if_pos hc, if_pos hg1, if_pos hz, if_pos hz]
        rfl
      · obtain ⟨f, k', b1, b2⟩ := ih (k + 1) s1 n1 (s1.next n1) n2 l (n2 :: r) hl' hr'
          (fun e => hz ((SL_zero hl').2 e)) (by simp) (by ndn hnd)
        refine ⟨fun a b => if a = n1 then cmp k a b else f a b, k', by simp only [List.length_cons] at b1 ⊢; omega, fun g hg => ?_⟩
        have hg1 : g n1 n2 ≤ 0 := by rw [hg n1 (by simp) n2 (by simp)]; simpa using hc
        rw [if_pos hc, if_pos hg1, if_neg hz, if_neg hz]
        refine b2 g (fun a ha b hb => ?_)
        rw [hg a (by simp [ha]) b hb]
        exact if_neg (show a ≠ n1 from by refine nd_ne ?_; ndm hnd, ha)
    · have hne : n2 ≠ tail := by refine nd_ne ?_; nds hnd
      have g1 := step n2 hne
      generalize (s.setNext tail n1).setPrev n1 tail = s0 at *
      generalize (s.setNext tail n2).setPrev n2 tail = s1 at g1 ⊢
      have hr' : SL s1 (s1.next n2) r := by rw [g1 n2 hne]; exact SL_frame hr (fun z hz => g1 z (by refine nd_ne ?_; ndm hnd, hz))
      have hl' : SL s1 n1 (n1 :: l) := SL_frame ⟨rfl, hx0, hl⟩ (fun z hz => g1 z (by refine nd_ne ?_; ndm hnd, hz))
      by_cases hz : s1.next n2 = 0
      · refine ⟨fun a b => cmp k a b, k + 1, by simp only [List.length_cons]; omega, fun g hg => ?_⟩
        have hg1 : ¬ g n1 n2 ≤ 0 := by rw [hg n1 (by simp) n2 (by simp)]; exact hc
        rw [if_neg hc, if_neg hg1, if_pos hz, if_pos hz]
        rfl
      · obtain ⟨f, k', b1, b2⟩ := ih (k + 1) s1 n2 n1 (s1.next n2) (n1 :: l) r hl' hr'
          (by simp) (fun e => hz ((SL_zero hr').2 e)) (by ndn hnd)
        refine ⟨fun a b => if b = n2 then cmp k a b else f a b, k', by simp only [List.length_cons] at b1 ⊢; omega, fun g hg => ?_⟩
        have hg1 : ¬ g n1 n2 ≤ 0 := by rw [hg n1 (by simp) n2 (by simp)]; simpa using hc
        rw [if_neg hc, if_neg hg1, if_neg hz, if_neg hz]
        refine b2 g (fun a ha b hb => ?_)
        rw [hg a ha b (by simp [hb])]
        exact if_neg (show b ≠ n2 from by refine nd_ne ?_; ndm hnd, hb)

theorem countFinish_ok (cmp : Nat → Addr → Addr → Int) {fuel : Nat} (k : Nat) {s : Heap} {head n1 n2 : Addr} {l1 l2 : List Addr} (h1 : SL s n1 l1)
    (h2 : SL s n2 l2) (e1 : l1 ≠ []) (e2 : l2 ≠ []) (hnd : (head :: (l1 ++ l2)).Nodup) (hf : l1.length + l2.length ≤ fuel) :
    ∃ s' k' m, countFinish cmp fuel k s head n1 n2 = some (s', k') ∧ Ring s' (head :: m) ∧ m.Perm (l1 ++ l2) ∧
      k' < k + l1.length + l2.length ∧ ∀ z, z ∉ head :: (l1 ++ l2) → Same s s' z := by
  obtain ⟨f, k', a1, a2⟩ := finishLoop_sim cmp fuel k s head n1 n2 l1 l2 h1 h2 e1 e2 hnd
  obtain ⟨s', r1, r2, r3⟩ := finish_ok f h1 h2 e1 e2 hnd hf
  refine ⟨s', k', mg f l1 l2, ?_, r2, mg_perm f l1 l2, a1, r3⟩
  unfold finish at r1
  rw [countFinish, a2 f (fun _ _ _ _ => rfl)]
  cases hL : finishLoop f fuel s head n1 n2 with
  | none => rw [hL] at r1; cases r1
  | some q =>
    rw [hL] at r1
    simp only [bind, Option.bind, Option.map] at r1 ⊢
    cases hR : relink fuel (q.1.setNext q.2.1 q.2.2) q.2.1 q.2.2 with
    | none => rw [hR] at r1; cases r1
    | some w =>
      rw [hR] at r1
      injection r1 with r1
      rw [← r1]
      rfl

end Bfdev.ListSort

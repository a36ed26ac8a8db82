import Verif.Rbtree.Rotate
/-!
C124: the work of rebalancing a red-black tree, over whole histories.
-/
set_option linter.unusedSimpArgs false
namespace Bfdev.Rbtree.Amortized
open Rbtree
variable {α : Type}

/-! ## Proofs: what a tree has saved for later rounds -/

/-- What a node of colour `c` with children of the given colours has saved. -/
def weight (c l r : Bool) : Nat := if c = true then (if l = true ∧ r = true then 1 else if l = true ∨ r = true then 0 else 2) else 0

/-- What a tree has saved. -/
def pot : Tree → Nat
  | .nil => 0
  | .node l _ c r => weight c l.isBlack r.isBlack + pot l + pot r

/-- What the nodes around a hole have saved, which is filled by a tree with a black or red top. -/
def potC : Ctx → Bool → Nat
  | [], _ => 0
  | ⟨_, _, c, s⟩ :: k, b => weight c b s.isBlack + pot s + potC k c

theorem weight_comm (c l r : Bool) : weight c l r = weight c r l := by cases c <;> cases l <;> cases r <;> rfl

theorem isBlack_node (l r : Tree) (a : Addr) (c : Bool) : (Tree.node l a c r).isBlack = c := rfl

theorem pot_plug : ∀ (k : Ctx) (t : Tree), pot (plug k t) = pot t + potC k t.isBlack
  | [], _ => rfl
  | ⟨true, a, c, s⟩ :: k, t => by
    rw [plug, pot_plug k]
    simp only [pot, potC, isBlack_node]; omega
  | ⟨false, a, c, s⟩ :: k, t => by
    rw [plug, pot_plug k]
    simp only [pot, potC, isBlack_node, weight_comm c s.isBlack]; omega

/-- What may be gained by turning the top of the tree in the hole red. -/
def bonus (k : Ctx) : Nat := if topBlack k = true then 2 else 0

theorem potC_red (k : Ctx) : potC k false ≤ potC k true + bonus k := by
  rcases k with _ | ⟨⟨d, a, c, s⟩, k⟩
  · simp [potC]
  · cases c <;> cases h : s.isBlack <;> simp [potC, bonus, topBlack, weight, h] <;> omega

theorem potC_black (k : Ctx) : potC k true ≤ potC k false + 1 := by
  rcases k with _ | ⟨⟨d, a, c, s⟩, k⟩
  · simp [potC]
  · cases c <;> cases h : s.isBlack <;> simp [potC, weight, h] <;> omega

/-- As `Done`, and the tree has saved at most `N`. -/
def DoneP (res : Option (Heap α)) (h : Heap α) (L : List Addr) (N : Nat) : Prop :=
  ∃ h' t', res = some h' ∧ Holds h' t' ∧ t'.inorder = L ∧ RedBlack t' ∧ Others h h' L ∧ pot t' ≤ N

theorem fixup_left (cb : Cb α) {h : Heap α} {k : Ctx} {l r s u : Tree} {x p g : Addr} {d : Bool} {n : Nat} {L : List Addr}
    (hat : At h (⟨d, p, false, s⟩ :: ⟨true, g, true, u⟩ :: k) (.node l x false r)) (hx : RB (.node l x false r) n) (hs : RB s n) (hsb : s.isBlack = true)
    (hu : RB u n) (hk : OKC k (n + 1)) (hL : (plug (⟨d, p, false, s⟩ :: ⟨true, g, true, u⟩ :: k) (.node l x false r)).inorder = L) :
    (∃ h2 l2 r2, (∀ fuel, fixup cb (fuel + 1) h x = fixup cb fuel h2 g) ∧ At h2 k (.node l2 g false r2) ∧ RB (.node l2 g false r2) (n + 1) ∧
      (plug k (.node l2 g false r2)).inorder = L ∧ Others h h2 L ∧
      pot (plug k (.node l2 g false r2)) + 1 ≤ pot (plug (⟨d, p, false, s⟩ :: ⟨true, g, true, u⟩ :: k) (.node l x false r)) + bonus k) ∨ DoneP (fixup cb (0 + 1) h x) h L (pot (plug (⟨d, p, false, s⟩ :: ⟨true, g, true, u⟩ :: k) (.node l x false r)) + 2) := by
  have hat0 := hat
  obtain ⟨hk0, ⟨x1, x2, x3, x4, x5, x6, x7⟩, hnd⟩ := hat
  have hp : p ≠ 0 ∧ h.par p = g ∧ h.black p = false ∧ (if d = true then h.left p = x ∧ h.right p = s.top else h.right p = x ∧ h.left p = s.top) ∧
      RepC h (⟨true, g, true, u⟩ :: k) p := by
    cases d <;> · obtain ⟨a1, a2, a3, a4, a5, a6, a7⟩ := hk0; exact ⟨a1, a2, a5, by simp [a3, a4, Tree.top], a7⟩
  obtain ⟨p1, p2, p3, p4, g1, g2, g3, g4, g5, g6, g7⟩ := hp
  have hup : up (⟨d, p, false, s⟩ :: ⟨true, g, true, u⟩ :: k) = p := rfl
  rw [hup] at x2
  have hnd2 : p ≠ x ∧ p ≠ g ∧ x ≠ g ∧ p ∉ u.inorder ∧ p ∉ s.inorder ∧ x ∉ s.inorder := by
    cases d <;> · simp only [pre, post, Tree.inorder, List.nodup_append, List.nodup_cons, List.mem_append, List.mem_cons, List.mem_singleton] at hnd; grind
  obtain ⟨n1, n2, n3, n4, n5, n6⟩ := hnd2
  have hup : u.top ≠ p := fun e => by
    by_cases hz : u.top = 0
    · exact p1 (by rw [← e, hz])
    · exact n4 (e ▸ top_mem hz)
  have hsx : s.top ≠ x := fun e => by
    by_cases hz : s.top = 0
    · exact x1 (by rw [← e, hz])
    · exact n6 (e ▸ top_mem hz)
  obtain ⟨xb1, xb2, xr1, xr2⟩ := hx
  cases hub : u.isBlack with
  | false =>
    left
    cases u with
    | nil => simp [Tree.isBlack] at hub
    | node ul ua uc ur =>
      simp only [Tree.isBlack] at hub
      subst hub
      obtain ⟨ub1, ub2, ur1, ur2⟩ := hu
      obtain ⟨u1, u2, u3, u4, u5, u6, u7⟩ := g6
      have hP : ∃ t : Tree × Tree, plug (⟨d, p, false, s⟩ :: ⟨true, g, true, .node ul ua false ur⟩ :: k) (.node l x false r) = plug k (.node (.node t.1 p false t.2) g true (.node ul ua false ur)) ∧
          RB t.1 n ∧ RB t.2 n ∧ weight true t.1.isBlack t.2.isBlack = 0 := by
        cases d
        · exact ⟨(s, .node l x false r), rfl, hs, ⟨xb1, xb2, xr1, xr2⟩, by simp [weight, hsb, isBlack_node]⟩
        · exact ⟨(.node l x false r, s), rfl, ⟨xb1, xb2, xr1, xr2⟩, hs, by simp [weight, hsb, isBlack_node]⟩
      obtain ⟨⟨tl, tr⟩, e, rl, rr, wt⟩ := hP
      simp only at e rl rr wt
      have hA : At h k (.node (.node tl p false tr) g true (.node ul ua false ur)) := by rw [at_iff, ← e, ← at_iff]; exact hat0
      obtain ⟨hA1, o1⟩ := (at_down_right.1 hA).paint true
      obtain ⟨hA2, o2⟩ := (at_down_left.1 (at_down_right.2 hA1)).paint true
      obtain ⟨hA3, o3⟩ := (at_down_left.2 hA2).paint false
      rw [e] at hL
      replace o1 := o1.of_eq (L := L) (by rw [← hL]; simp [inorder_plug, Tree.inorder, plug, pre, post, Tree.recolorOpt])
      replace o2 := o2.of_eq (L := L) (by rw [← hL]; simp [inorder_plug, Tree.inorder, plug, pre, post, Tree.recolorOpt])
      replace o3 := o3.of_eq (L := L) (by rw [← hL]; simp [inorder_plug, Tree.inorder, plug, pre, post, Tree.recolorOpt])
      refine ⟨_, _, _, ?_, hA3, ⟨rfl, rfl, ⟨n, rfl, rl, rr⟩, n, rfl, ur1, ur2⟩, ?_, (o1.trans o2).trans o3, ?_⟩
      · intro fuel
        simp only [Tree.top] at hup g3 g4
        simp only [fixup, if_neg x1, x2, if_neg p1, p3, p2, if_neg g1, g4, hup, u1, u5, ne_eq, not_false_eq_true, true_and, if_true, Bool.false_eq_true, if_false, hup]
      · rw [← hL]; simp [inorder_plug, Tree.inorder]
      · rw [e, pot_plug, pot_plug]
        have := potC_red k
        simp only [pot, isBlack_node, weight, ub1, ub2] at this wt ⊢
        simp at wt ⊢; omega
  | true =>
    right
    have hnr : ¬ (u.top ≠ 0 ∧ h.black u.top = false) := by
      rintro ⟨hz, hb⟩
      cases u with
      | nil => exact hz rfl
      | node ul ua uc ur =>
        simp only [Tree.isBlack] at hub
        obtain ⟨u1, u2, u3, u4, u5, u6, u7⟩ := g6
        simp only [Tree.top] at hb
        rw [hb] at u5; rw [← u5] at hub; simp at hub
    have hf : fixup cb (0 + 1) h x = (do
        let h ← if x = h.right p then (leftRotate cb h p none (some true)).map (·.1) else some h
        (rightRotate cb h g (some false) (some true)).map (·.1)) := by
      simp only [fixup, if_neg x1, x2, if_neg p1, p3, p2, if_neg g1, g4, if_neg hnr, ne_eq, hup, not_false_eq_true, if_true, Bool.false_eq_true, if_false]
    rw [hf]
    cases d with
    | true =>
      simp only [if_true] at p4
      rw [if_neg (by rw [p4.2]; exact hsx.symm)]
      have hA : At h k (.node (.node (.node l x false r) p false s) g true u) := at_iff.2 (at_iff.1 hat0 :)
      obtain ⟨h2, e2, hA2, o2⟩ := rightRotate_at cb (some false) (some true) hA
      replace o2 := o2.of_eq (L := L) (by rw [← hL]; simp [inorder_plug, Tree.inorder, plug, pre, post, Tree.recolorOpt])
      refine ⟨h2, _, ?_, at_iff.1 hA2, ?_, ?_, o2, ?_⟩
      · simp [e2]
      · rw [← hL]; simp [inorder_plug, Tree.inorder, plug, Tree.recolorOpt]
      · refine plug_redBlack k _ (n + 1) hk ?_ (Or.inl rfl)
        simp only [Option.isSome_some, if_true, Tree.recolorOpt, recolor_self hsb, Option.getD_some]
        exact ⟨n, rfl, ⟨xb1, xb2, xr1, xr2⟩, hsb, hub, hs, hu⟩
      · simp only [plug, Option.isSome_some, if_true, Tree.recolorOpt, recolor_self hsb, Option.getD_some]
        rw [pot_plug, pot_plug]
        simp [pot, isBlack_node, weight, xb1, xb2, hsb, hub]
        try omega
    | false =>
      simp only [Bool.false_eq_true, if_false] at p4
      rw [if_pos p4.1.symm]
      have hA : At h (⟨true, g, true, u⟩ :: k) (.node s p false (.node l x false r)) := at_iff.2 (at_iff.1 hat0 :)
      obtain ⟨h1, e1, hA1, o1⟩ := leftRotate_at cb none (some true) hA
      obtain ⟨h2, e2, hA2, o2⟩ := rightRotate_at cb (some false) (some true) (at_down_left.2 hA1)
      replace o1 := o1.of_eq (L := L) (by rw [← hL]; simp [inorder_plug, Tree.inorder, plug, pre, post, Tree.recolorOpt])
      replace o2 := o2.of_eq (L := L) (by rw [← hL]; simp [inorder_plug, Tree.inorder, plug, pre, post, Tree.recolorOpt])
      simp only [Option.isSome_some, Option.isSome_none, if_true, Tree.recolorOpt, recolor_self xb1, recolor_self xb2, Option.getD_some, Option.getD_none, Bool.false_eq_true, if_false] at hA2
      refine ⟨h2, _, ?_, at_iff.1 hA2, ?_, ?_, o1.trans o2, ?_⟩
      · simp [e1, e2]
      · rw [← hL]; simp [inorder_plug, Tree.inorder, plug, Tree.recolorOpt]
      · refine plug_redBlack k _ (n + 1) hk ?_ (Or.inl rfl)
        exact ⟨n, rfl, ⟨hsb, xb1, hs, xr1⟩, xb2, hub, xr2, hu⟩
      · simp only [plug, Option.isSome_some, if_true, Tree.recolorOpt, recolor_self hsb, Option.getD_some]
        rw [pot_plug, pot_plug]
        simp [pot, isBlack_node, weight, xb1, xb2, hsb, hub]
        try omega

theorem fixup_right (cb : Cb α) {h : Heap α} {k : Ctx} {l r s u : Tree} {x p g : Addr} {d : Bool} {n : Nat} {L : List Addr}
    (hat : At h (⟨d, p, false, s⟩ :: ⟨false, g, true, u⟩ :: k) (.node l x false r)) (hx : RB (.node l x false r) n) (hs : RB s n) (hsb : s.isBlack = true)
    (hu : RB u n) (hk : OKC k (n + 1)) (hL : (plug (⟨d, p, false, s⟩ :: ⟨false, g, true, u⟩ :: k) (.node l x false r)).inorder = L) :
    (∃ h2 l2 r2, (∀ fuel, fixup cb (fuel + 1) h x = fixup cb fuel h2 g) ∧ At h2 k (.node l2 g false r2) ∧ RB (.node l2 g false r2) (n + 1) ∧
      (plug k (.node l2 g false r2)).inorder = L ∧ Others h h2 L ∧
      pot (plug k (.node l2 g false r2)) + 1 ≤ pot (plug (⟨d, p, false, s⟩ :: ⟨false, g, true, u⟩ :: k) (.node l x false r)) + bonus k) ∨ DoneP (fixup cb (0 + 1) h x) h L (pot (plug (⟨d, p, false, s⟩ :: ⟨false, g, true, u⟩ :: k) (.node l x false r)) + 2) := by
  have hat0 := hat
  obtain ⟨hk0, ⟨x1, x2, x3, x4, x5, x6, x7⟩, hnd⟩ := hat
  have hp : p ≠ 0 ∧ h.par p = g ∧ h.black p = false ∧ (if d = true then h.left p = x ∧ h.right p = s.top else h.right p = x ∧ h.left p = s.top) ∧
      RepC h (⟨false, g, true, u⟩ :: k) p := by
    cases d <;> · obtain ⟨a1, a2, a3, a4, a5, a6, a7⟩ := hk0; exact ⟨a1, a2, a5, by simp [a3, a4, Tree.top], a7⟩
  obtain ⟨p1, p2, p3, p4, g1, g2, g3, g4, g5, g6, g7⟩ := hp
  have hup : up (⟨d, p, false, s⟩ :: ⟨false, g, true, u⟩ :: k) = p := rfl
  rw [hup] at x2
  have hnd2 : p ≠ x ∧ p ≠ g ∧ x ≠ g ∧ p ∉ u.inorder ∧ p ∉ s.inorder ∧ x ∉ s.inorder := by
    cases d <;> · simp only [pre, post, Tree.inorder, List.nodup_append, List.nodup_cons, List.mem_append, List.mem_cons, List.mem_singleton] at hnd; grind
  obtain ⟨n1, n2, n3, n4, n5, n6⟩ := hnd2
  have hup : u.top ≠ p := fun e => by
    by_cases hz : u.top = 0
    · exact p1 (by rw [← e, hz])
    · exact n4 (e ▸ top_mem hz)
  have hsx : s.top ≠ x := fun e => by
    by_cases hz : s.top = 0
    · exact x1 (by rw [← e, hz])
    · exact n6 (e ▸ top_mem hz)
  obtain ⟨xb1, xb2, xr1, xr2⟩ := hx
  cases hub : u.isBlack with
  | false =>
    left
    cases u with
    | nil => simp [Tree.isBlack] at hub
    | node ul ua uc ur =>
      simp only [Tree.isBlack] at hub
      subst hub
      obtain ⟨ub1, ub2, ur1, ur2⟩ := hu
      obtain ⟨u1, u2, u3, u4, u5, u6, u7⟩ := g6
      have hP : ∃ t : Tree × Tree, plug (⟨d, p, false, s⟩ :: ⟨false, g, true, .node ul ua false ur⟩ :: k) (.node l x false r) = plug k (.node (.node ul ua false ur) g true (.node t.1 p false t.2)) ∧
          RB t.1 n ∧ RB t.2 n ∧ weight true t.1.isBlack t.2.isBlack = 0 := by
        cases d
        · exact ⟨(s, .node l x false r), rfl, hs, ⟨xb1, xb2, xr1, xr2⟩, by simp [weight, hsb, isBlack_node]⟩
        · exact ⟨(.node l x false r, s), rfl, ⟨xb1, xb2, xr1, xr2⟩, hs, by simp [weight, hsb, isBlack_node]⟩
      obtain ⟨⟨tl, tr⟩, e, rl, rr, wt⟩ := hP
      simp only at e rl rr wt
      have hA : At h k (.node (.node ul ua false ur) g true (.node tl p false tr)) := by rw [at_iff, ← e, ← at_iff]; exact hat0
      obtain ⟨hA1, o1⟩ := (at_down_left.1 hA).paint true
      obtain ⟨hA2, o2⟩ := (at_down_right.1 (at_down_left.2 hA1)).paint true
      obtain ⟨hA3, o3⟩ := (at_down_right.2 hA2).paint false
      rw [e] at hL
      replace o1 := o1.of_eq (L := L) (by rw [← hL]; simp [inorder_plug, Tree.inorder, plug, pre, post, Tree.recolorOpt])
      replace o2 := o2.of_eq (L := L) (by rw [← hL]; simp [inorder_plug, Tree.inorder, plug, pre, post, Tree.recolorOpt])
      replace o3 := o3.of_eq (L := L) (by rw [← hL]; simp [inorder_plug, Tree.inorder, plug, pre, post, Tree.recolorOpt])
      refine ⟨_, _, _, ?_, hA3, ⟨rfl, rfl, ⟨n, rfl, ur1, ur2⟩, n, rfl, rl, rr⟩, ?_, (o1.trans o2).trans o3, ?_⟩
      · intro fuel
        simp only [Tree.top] at hup g3 g4
        simp only [fixup, if_neg x1, x2, if_neg p1, p3, p2, if_neg g1, g3, g4, ne_eq, not_true_eq_false, if_false, hup, u1, u5, ne_eq, not_false_eq_true, true_and, if_true, Bool.false_eq_true, if_false, hup]
      · rw [← hL]; simp [inorder_plug, Tree.inorder]
      · rw [e, pot_plug, pot_plug]
        have := potC_red k
        simp only [pot, isBlack_node, weight, ub1, ub2] at this wt ⊢
        simp at wt ⊢; omega
  | true =>
    right
    have hnr : ¬ (u.top ≠ 0 ∧ h.black u.top = false) := by
      rintro ⟨hz, hb⟩
      cases u with
      | nil => exact hz rfl
      | node ul ua uc ur =>
        simp only [Tree.isBlack] at hub
        obtain ⟨u1, u2, u3, u4, u5, u6, u7⟩ := g6
        simp only [Tree.top] at hb
        rw [hb] at u5; rw [← u5] at hub; simp at hub
    have hf : fixup cb (0 + 1) h x = (do
        let h ← if x = h.left p then (rightRotate cb h p none (some true)).map (·.1) else some h
        (leftRotate cb h g (some false) (some true)).map (·.1)) := by
      simp only [fixup, if_neg x1, x2, if_neg p1, p3, p2, if_neg g1, g3, g4, ne_eq, not_true_eq_false, if_false, if_neg hnr, ne_eq, hup, not_false_eq_true, if_true, Bool.false_eq_true, if_false]
    rw [hf]
    cases d with
    | true =>
      simp only [if_true] at p4
      rw [if_pos p4.1.symm]
      have hA : At h (⟨false, g, true, u⟩ :: k) (.node (.node l x false r) p false s) := at_iff.2 (at_iff.1 hat0 :)
      obtain ⟨h1, e1, hA1, o1⟩ := rightRotate_at cb none (some true) hA
      obtain ⟨h2, e2, hA2, o2⟩ := leftRotate_at cb (some false) (some true) (at_down_right.2 hA1)
      replace o1 := o1.of_eq (L := L) (by rw [← hL]; simp [inorder_plug, Tree.inorder, plug, pre, post, Tree.recolorOpt])
      replace o2 := o2.of_eq (L := L) (by rw [← hL]; simp [inorder_plug, Tree.inorder, plug, pre, post, Tree.recolorOpt])
      simp only [Option.isSome_some, Option.isSome_none, if_true, Tree.recolorOpt, recolor_self xb1, recolor_self xb2, Option.getD_some, Option.getD_none, Bool.false_eq_true, if_false] at hA2
      refine ⟨h2, _, ?_, at_iff.1 hA2, ?_, ?_, o1.trans o2, ?_⟩
      · simp [e1, e2]
      · rw [← hL]; simp [inorder_plug, Tree.inorder, plug, Tree.recolorOpt]
      · refine plug_redBlack k _ (n + 1) hk ?_ (Or.inl rfl)
        exact ⟨n, rfl, ⟨hub, xb1, hu, xr1⟩, xb2, hsb, xr2, hs⟩
      · simp only [plug, Option.isSome_some, if_true, Tree.recolorOpt, recolor_self hsb, Option.getD_some]
        rw [pot_plug, pot_plug]
        simp [pot, isBlack_node, weight, xb1, xb2, hsb, hub]
        try omega
    | false =>
      simp only [Bool.false_eq_true, if_false] at p4
      rw [if_neg (by rw [p4.2]; exact hsx.symm)]
      have hA : At h k (.node u g true (.node s p false (.node l x false r))) := at_iff.2 (at_iff.1 hat0 :)
      obtain ⟨h2, e2, hA2, o2⟩ := leftRotate_at cb (some false) (some true) hA
      replace o2 := o2.of_eq (L := L) (by rw [← hL]; simp [inorder_plug, Tree.inorder, plug, pre, post, Tree.recolorOpt])
      refine ⟨h2, _, ?_, at_iff.1 hA2, ?_, ?_, o2, ?_⟩
      · simp [e2]
      · rw [← hL]; simp [inorder_plug, Tree.inorder, plug, Tree.recolorOpt]
      · refine plug_redBlack k _ (n + 1) hk ?_ (Or.inl rfl)
        simp only [Option.isSome_some, if_true, Tree.recolorOpt, recolor_self hsb, Option.getD_some]
        exact ⟨n, rfl, ⟨hub, hsb, hu, hs⟩, xb1, xb2, xr1, xr2⟩
      · simp only [plug, Option.isSome_some, if_true, Tree.recolorOpt, recolor_self hsb, Option.getD_some]
        rw [pot_plug, pot_plug]
        simp [pot, isBlack_node, weight, xb1, xb2, hsb, hub]
        try omega

/-- The same for one round of the loop of a deletion. -/
def StepDoneP (r : Option (EraseNext α)) (h : Heap α) (L : List Addr) (p : Addr) (c : Bool) (k : Ctx) (n : Nat) (N : Nat) : Prop :=
  (∃ h2 t2, r = some (.stop h2) ∧ Holds h2 t2 ∧ t2.inorder = L ∧ RedBlack t2 ∧ Others h h2 L ∧ pot t2 ≤ N + 2) ∨
  (∃ h2 l2 r2, r = some (.again h2 p (up k)) ∧ c = true ∧ k ≠ [] ∧ At h2 k (.node l2 p true r2) ∧ (plug k (.node l2 p true r2)).inorder = L ∧ RB (.node l2 p true r2) (n + 1) ∧ OKC k (n + 2) ∧ Others h h2 L ∧
    pot (plug k (.node l2 p true r2)) + 2 ≤ N)

theorem eraseLeft_at (cb : Cb α) {h : Heap α} {k : Ctx} {t Sl Sr : Tree} {p s : Addr} {cp : Bool} {n : Nat} {L : List Addr}
    (hat : At h k (.node t p cp (.node Sl s true Sr))) (ht : RB t n) (htb : t.isBlack = true) (hl : RB Sl n) (hr : RB Sr n) (hk : OKTop k cp (n + 1))
    (hL : (plug k (.node t p cp (.node Sl s true Sr))).inorder = L) : StepDoneP (eraseLeft cb h s p) h L p cp k n (pot (plug k (.node t p cp (.node Sl s true Sr)))) := by
  have hat0 := hat
  obtain ⟨hk0, ⟨p1, p2, p3, p4, p5, p6, ⟨s1, s2, s3, s4, s5, s6, s7⟩⟩, hnd⟩ := hat
  have hsp : s ≠ p := by
    simp only [Tree.inorder, List.nodup_append, List.nodup_cons, List.mem_append, List.mem_cons] at hnd; grind
  unfold eraseLeft
  rw [if_neg s1]
  simp only [s4, s3, isBlackOrNull_rep s7, isBlackOrNull_rep s6]
  cases hrb : Sr.isBlack with
  | true =>
    cases hlb : Sl.isBlack with
    | true =>
      simp only [if_true]
      obtain ⟨hA1, o1⟩ := (at_down_right.1 hat0).paint false
      replace o1 := o1.of_eq (L := L) (by rw [← hL]; simp [inorder_plug, Tree.inorder, plug, pre, post])
      have hb : (h.setBlack s false).black p = cp := by simp [Heap.setBlack, upd, hsp.symm, p5]
      have hpp : (h.setBlack s false).par p = up k := p2
      unfold eraseFlip
      simp only [hb, hpp]
      cases cp with
      | false =>
        left
        obtain ⟨hA2, o2⟩ := (at_down_right.2 hA1).paint true
        replace o2 := o2.of_eq (L := L) (by rw [← hL]; simp [inorder_plug, Tree.inorder, plug, pre, post])
        refine ⟨_, _, by simp, at_iff.1 hA2, by rw [← hL]; simp [inorder_plug, Tree.inorder], ?_, o1.trans o2, ?_⟩
        exact plug_redBlack k _ (n + 1) hk.2 ⟨n, rfl, ht, hlb, hrb, hl, hr⟩ (Or.inl rfl)
        rw [pot_plug, pot_plug]
        have i1 := potC_black k
        simp only [pot, isBlack_node, weight, htb, hlb, hrb] at i1 ⊢
        simp
        try omega

      | true =>
        have hRB : RB (.node t p true (.node Sl s false Sr)) (n + 1) := ⟨n, rfl, ht, hlb, hrb, hl, hr⟩
        by_cases hkn : k = []
        · left
          refine ⟨_, _, by simp [hkn, up], at_iff.1 (at_down_right.2 hA1), by rw [← hL]; simp [inorder_plug, Tree.inorder], ?_, o1, ?_⟩
          subst hkn
          exact plug_redBlack [] _ (n + 1) trivial hRB (Or.inl rfl)
          rw [pot_plug, pot_plug]
          have i1 := potC_black k
          simp only [pot, isBlack_node, weight, htb, hlb, hrb] at i1 ⊢
          simp
          try omega

        · right
          refine ⟨_, _, _, ?_, rfl, hkn, at_down_right.2 hA1, by rw [← hL]; simp [inorder_plug, Tree.inorder], hRB, hk, o1, ?_⟩
          have : up k ≠ 0 := fun e => hkn (hk0.up_ne_zero.1 e)
          simp [this]
          rw [pot_plug, pot_plug]
          have i1 := potC_black k
          simp only [pot, isBlack_node, weight, htb, hlb, hrb] at i1 ⊢
          simp
          try omega

    | false =>
      left
      cases Sl with
      | nil => simp [Tree.isBlack] at hlb
      | node sll sl slc slr =>
        simp only [Tree.isBlack] at hlb
        subst hlb
        obtain ⟨b1, b2, r1, r2⟩ := hl
        obtain ⟨h1, e1, hA1, o1⟩ := rightRotate_at cb none (some true) (at_down_right.1 hat0)
        simp only [Option.isSome_some, Option.isSome_none, if_true, Tree.recolorOpt, recolor_self b1, recolor_self b2, Option.getD_some, Option.getD_none, Bool.false_eq_true, if_false] at hA1
        obtain ⟨h2, e2, hA2, o2⟩ := leftRotate_at cb (some true) none (at_down_right.2 hA1)
        simp only [Option.isSome_some, Option.isSome_none, if_true, Tree.recolorOpt, recolor_self b1, recolor_self b2, Option.getD_some, Option.getD_none, Bool.false_eq_true, if_false] at hA2
        obtain ⟨hA3, o3⟩ := (at_down_right.1 hA2).paint true
        replace o1 := o1.of_eq (L := L) (by rw [← hL]; simp [inorder_plug, Tree.inorder, plug, pre, post])
        replace o2 := o2.of_eq (L := L) (by rw [← hL]; simp [inorder_plug, Tree.inorder, plug, pre, post])
        replace o3 := o3.of_eq (L := L) (by rw [← hL]; simp [inorder_plug, Tree.inorder, plug, pre, post])
        refine ⟨_, _, by simp [e1, e2], at_iff.1 (at_down_right.2 hA3), by rw [← hL]; simp [inorder_plug, Tree.inorder], ?_, (o1.trans o2).trans o3, ?_⟩
        exact hk.plug ⟨n, rfl, ht, r1⟩ ⟨n, rfl, r2, hr⟩ rfl rfl
        rw [pot_plug, pot_plug]
        have i1 := potC_black k
        simp only [pot, isBlack_node, weight, htb, hrb, b1, b2] at i1 ⊢
        simp
        try omega

  | false =>
    left
    obtain ⟨h2, e2, hA2, o2⟩ := leftRotate_at cb (some true) none hat0
    simp only [Option.isSome_some, Option.isSome_none, if_true, Tree.recolorOpt, Option.getD_some, Option.getD_none, Bool.false_eq_true, if_false] at hA2
    cases Sr with
    | nil => simp [Tree.isBlack] at hrb
    | node srl sr src srr =>
      simp only [Tree.isBlack] at hrb
      subst hrb
      obtain ⟨b1, b2, r1, r2⟩ := hr
      obtain ⟨hA3, o3⟩ := (at_down_right.1 hA2).paint true
      replace o2 := o2.of_eq (L := L) (by rw [← hL]; simp [inorder_plug, Tree.inorder, plug, pre, post])
      replace o3 := o3.of_eq (L := L) (by rw [← hL]; simp [inorder_plug, Tree.inorder, plug, pre, post])
      refine ⟨_, _, by simp [e2, Tree.top], at_iff.1 (at_down_right.2 hA3), by rw [← hL]; simp [inorder_plug, Tree.inorder], ?_, o2.trans o3, ?_⟩
      exact hk.plug ⟨n, rfl, ht, hl⟩ ⟨n, rfl, r1, r2⟩ rfl rfl
      rw [pot_plug, pot_plug]
      have i1 := potC_black k
      simp only [pot, isBlack_node, weight, htb, b1, b2] at i1 ⊢
      cases cp <;> cases Sl.isBlack <;> simp <;> omega


theorem eraseStep_left (cb : Cb α) {h : Heap α} {k : Ctx} {t S : Tree} {p : Addr} {cp : Bool} {n : Nat} {L : List Addr}
    (hat : At h k (.node t p cp S)) (ht : RB t n) (htb : t.isBlack = true) (hk : OKC (⟨true, p, cp, S⟩ :: k) (n + 1))
    (hL : (plug k (.node t p cp S)).inorder = L) :
    StepDoneP (eraseStep cb h t.top p) h L p cp k n (pot (plug k (.node t p cp S))) := by
  have hat0 := hat
  obtain ⟨hk0, ⟨p1, p2, p3, p4, p5, p6, p7⟩, hnd⟩ := hat
  have hS : RB S (n + 1) := by cases cp <;> exact hk.1
  cases S with
  | nil => simp [RB] at hS
  | node Sl s cs Sr =>
    obtain ⟨s1, s2, s3, s4, s5, s6, s7⟩ := p7
    have hts : t.top ≠ s := fun e => by
      have := top_mem (t := t) (by rw [e]; exact s1)
      rw [e] at this
      simp only [Tree.inorder, List.nodup_append, List.nodup_cons, List.mem_append, List.mem_cons] at hnd; grind
    simp only [Tree.top] at p4
    unfold eraseStep
    simp only [p4, ne_eq, hts, not_false_eq_true, if_true, s1, if_false, s5]
    cases cs with
    | true =>
      simp only [Bool.true_eq_false, if_false]
      obtain ⟨m, hm, rl, rr⟩ := hS
      obtain rfl : m = n := by omega
      refine eraseLeft_at cb hat0 ht htb rl rr ?_ hL
      cases cp with
      | true => exact hk.2
      | false => exact hk.2.2
    | false =>
      obtain ⟨b1, b2, r1, r2⟩ := hS
      obtain ⟨h1, e1, hA1, o1⟩ := leftRotate_at cb (some false) (some true) hat0
      simp only [if_true, e1, Option.bind_eq_bind, Option.bind_some]
      cases cp with
      | false => exact absurd hk.2.1 (by simp [Tree.isBlack])
      | true =>
        simp only [Option.isSome_some, Option.isSome_none, if_true, Tree.recolorOpt, recolor_self b1, recolor_self b2, Option.getD_some, Option.getD_none, Bool.false_eq_true, if_false] at hA1
        cases Sl with
        | nil => simp [RB] at r1
        | node sll sl slc slr =>
          simp only [Tree.isBlack] at b1
          subst b1
          obtain ⟨m, hm, rl, rr⟩ := r1
          obtain rfl : m = n := by omega
          replace o1 := o1.of_eq (L := L) (by rw [← hL]; simp [inorder_plug, Tree.inorder, plug, pre, post])
          have := eraseLeft_at cb (at_down_left.1 hA1) ht htb rl rr (show OKTop _ false (m + 1) from ⟨rfl, r2, hk.2⟩)
            (show _ = L by rw [← hL]; simp [inorder_plug, Tree.inorder, plug, pre, post])
          rcases this with ⟨h2, t2, q1, q2, q3, q4, q5, q6⟩ | ⟨h2, l2, rr2, q1, q2, _⟩
          · refine Or.inl ⟨h2, t2, q1, q2, q3, q4, o1.trans q5, ?_⟩
            refine Nat.le_trans q6 (Nat.le_of_eq ?_)
            simp only [plug, pot_plug, pot, isBlack_node, weight, htb, b2]
            simp
            try omega
          · simp at q2

theorem eraseRight_at (cb : Cb α) {h : Heap α} {k : Ctx} {t Sl Sr : Tree} {p s : Addr} {cp : Bool} {n : Nat} {L : List Addr}
    (hat : At h k (.node (.node Sr s true Sl) p cp t)) (ht : RB t n) (htb : t.isBlack = true) (hl : RB Sl n) (hr : RB Sr n) (hk : OKTop k cp (n + 1))
    (hL : (plug k (.node (.node Sr s true Sl) p cp t)).inorder = L) : StepDoneP (eraseRight cb h s p) h L p cp k n (pot (plug k (.node (.node Sr s true Sl) p cp t))) := by
  have hat0 := hat
  obtain ⟨hk0, ⟨p1, p2, p4, p3, p5, ⟨s1, s2, s4, s3, s5, s7, s6⟩, p6⟩, hnd⟩ := hat
  have hsp : s ≠ p := by
    simp only [Tree.inorder, List.nodup_append, List.nodup_cons, List.mem_append, List.mem_cons] at hnd; grind
  unfold eraseRight
  rw [if_neg s1]
  simp only [s4, s3, isBlackOrNull_rep s7, isBlackOrNull_rep s6]
  cases hrb : Sr.isBlack with
  | true =>
    cases hlb : Sl.isBlack with
    | true =>
      simp only [if_true]
      obtain ⟨hA1, o1⟩ := (at_down_left.1 hat0).paint false
      replace o1 := o1.of_eq (L := L) (by rw [← hL]; simp [inorder_plug, Tree.inorder, plug, pre, post])
      have hb : (h.setBlack s false).black p = cp := by simp [Heap.setBlack, upd, hsp.symm, p5]
      have hpp : (h.setBlack s false).par p = up k := p2
      unfold eraseFlip
      simp only [hb, hpp]
      cases cp with
      | false =>
        left
        obtain ⟨hA2, o2⟩ := (at_down_left.2 hA1).paint true
        replace o2 := o2.of_eq (L := L) (by rw [← hL]; simp [inorder_plug, Tree.inorder, plug, pre, post])
        refine ⟨_, _, by simp, at_iff.1 hA2, by rw [← hL]; simp [inorder_plug, Tree.inorder], ?_, o1.trans o2, ?_⟩
        exact plug_redBlack k _ (n + 1) hk.2 ⟨n, rfl, ⟨hrb, hlb, hr, hl⟩, ht⟩ (Or.inl rfl)
        rw [pot_plug, pot_plug]
        have i1 := potC_black k
        simp only [pot, isBlack_node, weight, htb, hlb, hrb] at i1 ⊢
        simp
        try omega

      | true =>
        have hRB : RB (.node (.node Sr s false Sl) p true t) (n + 1) := ⟨n, rfl, ⟨hrb, hlb, hr, hl⟩, ht⟩
        by_cases hkn : k = []
        · left
          refine ⟨_, _, by simp [hkn, up], at_iff.1 (at_down_left.2 hA1), by rw [← hL]; simp [inorder_plug, Tree.inorder], ?_, o1, ?_⟩
          subst hkn
          exact plug_redBlack [] _ (n + 1) trivial hRB (Or.inl rfl)
          rw [pot_plug, pot_plug]
          have i1 := potC_black k
          simp only [pot, isBlack_node, weight, htb, hlb, hrb] at i1 ⊢
          simp
          try omega

        · right
          refine ⟨_, _, _, ?_, rfl, hkn, at_down_left.2 hA1, by rw [← hL]; simp [inorder_plug, Tree.inorder], hRB, hk, o1, ?_⟩
          have : up k ≠ 0 := fun e => hkn (hk0.up_ne_zero.1 e)
          simp [this]
          rw [pot_plug, pot_plug]
          have i1 := potC_black k
          simp only [pot, isBlack_node, weight, htb, hlb, hrb] at i1 ⊢
          simp
          try omega

    | false =>
      left
      cases Sl with
      | nil => simp [Tree.isBlack] at hlb
      | node slr sl slc sll =>
        simp only [Tree.isBlack] at hlb
        subst hlb
        obtain ⟨b2, b1, r2, r1⟩ := hl
        obtain ⟨h1, e1, hA1, o1⟩ := leftRotate_at cb none (some true) (at_down_left.1 hat0)
        simp only [Option.isSome_some, Option.isSome_none, if_true, Tree.recolorOpt, recolor_self b1, recolor_self b2, Option.getD_some, Option.getD_none, Bool.false_eq_true, if_false] at hA1
        obtain ⟨h2, e2, hA2, o2⟩ := rightRotate_at cb (some true) none (at_down_left.2 hA1)
        simp only [Option.isSome_some, Option.isSome_none, if_true, Tree.recolorOpt, recolor_self b1, recolor_self b2, Option.getD_some, Option.getD_none, Bool.false_eq_true, if_false] at hA2
        obtain ⟨hA3, o3⟩ := (at_down_left.1 hA2).paint true
        replace o1 := o1.of_eq (L := L) (by rw [← hL]; simp [inorder_plug, Tree.inorder, plug, pre, post])
        replace o2 := o2.of_eq (L := L) (by rw [← hL]; simp [inorder_plug, Tree.inorder, plug, pre, post])
        replace o3 := o3.of_eq (L := L) (by rw [← hL]; simp [inorder_plug, Tree.inorder, plug, pre, post])
        refine ⟨_, _, by simp [e1, e2], at_iff.1 (at_down_left.2 hA3), by rw [← hL]; simp [inorder_plug, Tree.inorder], ?_, (o1.trans o2).trans o3, ?_⟩
        exact hk.plug ⟨n, rfl, hr, r2⟩ ⟨n, rfl, r1, ht⟩ rfl rfl
        rw [pot_plug, pot_plug]
        have i1 := potC_black k
        simp only [pot, isBlack_node, weight, htb, hrb, b1, b2] at i1 ⊢
        simp
        try omega

  | false =>
    left
    obtain ⟨h2, e2, hA2, o2⟩ := rightRotate_at cb (some true) none hat0
    simp only [Option.isSome_some, Option.isSome_none, if_true, Tree.recolorOpt, Option.getD_some, Option.getD_none, Bool.false_eq_true, if_false] at hA2
    cases Sr with
    | nil => simp [Tree.isBlack] at hrb
    | node srl sr src srr =>
      simp only [Tree.isBlack] at hrb
      subst hrb
      obtain ⟨b1, b2, r1, r2⟩ := hr
      obtain ⟨hA3, o3⟩ := (at_down_left.1 hA2).paint true
      replace o2 := o2.of_eq (L := L) (by rw [← hL]; simp [inorder_plug, Tree.inorder, plug, pre, post])
      replace o3 := o3.of_eq (L := L) (by rw [← hL]; simp [inorder_plug, Tree.inorder, plug, pre, post])
      refine ⟨_, _, by simp [e2, Tree.top], at_iff.1 (at_down_left.2 hA3), by rw [← hL]; simp [inorder_plug, Tree.inorder], ?_, o2.trans o3, ?_⟩
      exact hk.plug ⟨n, rfl, r1, r2⟩ ⟨n, rfl, hl, ht⟩ rfl rfl
      rw [pot_plug, pot_plug]
      have i1 := potC_black k
      simp only [pot, isBlack_node, weight, htb, b1, b2] at i1 ⊢
      cases cp <;> cases Sl.isBlack <;> simp <;> omega


theorem eraseStep_right (cb : Cb α) {h : Heap α} {k : Ctx} {t S : Tree} {p : Addr} {cp : Bool} {n : Nat} {L : List Addr}
    (hat : At h k (.node S p cp t)) (ht : RB t n) (htb : t.isBlack = true) (hk : OKC (⟨false, p, cp, S⟩ :: k) (n + 1))
    (hL : (plug k (.node S p cp t)).inorder = L) :
    StepDoneP (eraseStep cb h t.top p) h L p cp k n (pot (plug k (.node S p cp t))) := by
  have hat0 := hat
  obtain ⟨hk0, ⟨p1, p2, p4, p3, p5, p7, p6⟩, hnd⟩ := hat
  have hS : RB S (n + 1) := by cases cp <;> exact hk.1
  cases S with
  | nil => simp [RB] at hS
  | node Sr s cs Sl =>
    obtain ⟨s1, s2, s4, s3, s5, s7, s6⟩ := p7
    have hts : t.top ≠ s := fun e => by
      have := top_mem (t := t) (by rw [e]; exact s1)
      rw [e] at this
      simp only [Tree.inorder, List.nodup_append, List.nodup_cons, List.mem_append, List.mem_cons] at hnd; grind
    simp only [Tree.top] at p4
    unfold eraseStep
    simp only [p3, p4, ne_eq, not_true_eq_false, if_false, s1, s5]
    cases cs with
    | true =>
      simp only [Bool.true_eq_false, if_false]
      obtain ⟨m, hm, rr, rl⟩ := hS
      obtain rfl : m = n := by omega
      refine eraseRight_at cb hat0 ht htb rl rr ?_ hL
      cases cp with
      | true => exact hk.2
      | false => exact hk.2.2
    | false =>
      obtain ⟨b2, b1, r2, r1⟩ := hS
      obtain ⟨h1, e1, hA1, o1⟩ := rightRotate_at cb (some false) (some true) hat0
      simp only [if_true, e1, Option.bind_eq_bind, Option.bind_some]
      cases cp with
      | false => exact absurd hk.2.1 (by simp [Tree.isBlack])
      | true =>
        simp only [Option.isSome_some, Option.isSome_none, if_true, Tree.recolorOpt, recolor_self b1, recolor_self b2, Option.getD_some, Option.getD_none, Bool.false_eq_true, if_false] at hA1
        cases Sl with
        | nil => simp [RB] at r1
        | node slr sl slc sll =>
          simp only [Tree.isBlack] at b1
          subst b1
          obtain ⟨m, hm, rr, rl⟩ := r1
          obtain rfl : m = n := by omega
          replace o1 := o1.of_eq (L := L) (by rw [← hL]; simp [inorder_plug, Tree.inorder, plug, pre, post])
          have := eraseRight_at cb (at_down_right.1 hA1) ht htb rl rr (show OKTop _ false (m + 1) from ⟨rfl, r2, hk.2⟩)
            (show _ = L by rw [← hL]; simp [inorder_plug, Tree.inorder, plug, pre, post])
          rcases this with ⟨h2, t2, q1, q2, q3, q4, q5, q6⟩ | ⟨h2, l2, rr2, q1, q2, _⟩
          · refine Or.inl ⟨h2, t2, q1, q2, q3, q4, o1.trans q5, ?_⟩
            refine Nat.le_trans q6 (Nat.le_of_eq ?_)
            simp only [plug, pot_plug, pot, isBlack_node, weight, htb, b2]
            simp
            try omega
          · simp at q2

/-! ## Proofs: whole calls -/

/-- The rounds of an insertion are paid by what the tree had saved and three more. -/
theorem fixup_pot (cb : Cb α) : ∀ (k : Ctx) {h : Heap α} {l r : Tree} {x : Addr} {n : Nat},
    At h k (.node l x false r) → RB (.node l x false r) n → OKC k n →
    ∃ f h' t', fixup cb f h x = some h' ∧ Holds h' t' ∧ f + pot t' ≤ pot (plug k (.node l x false r)) + (if topBlack k = true then 1 else 3)
  | [], h, l, r, x, n, hat, hx, hk => by
    obtain ⟨hA, o⟩ := hat.paint true
    have hat0 := hat
    obtain ⟨_, ⟨x1, x2, _⟩, _⟩ := hat
    refine ⟨0 + 1, _, _, ?_, at_iff.1 hA, ?_⟩
    · rw [fixup, if_neg x1, x2]; simp [up]
    · simp only [plug, pot, topBlack, weight, hx.1, hx.2.1, Tree.recolor]; simp; omega
  | ⟨d, p, true, s⟩ :: k, h, l, r, x, n, hat, hx, hk => by
    have hat0 := hat
    obtain ⟨hk0, ⟨x1, x2, x3, x4, x5, x6, x7⟩, hnd⟩ := hat
    have hp : p ≠ 0 ∧ h.black p = true := by
      cases d <;> · obtain ⟨a1, a2, a3, a4, a5, a6, a7⟩ := hk0; exact ⟨a1, a5⟩
    refine ⟨0 + 1, h, _, ?_, at_iff.1 hat0, by simp only [topBlack, if_true]; omega⟩
    have hup : up (⟨d, p, true, s⟩ :: k) = p := rfl
    rw [hup] at x2
    simp only [fixup, if_neg x1, x2, if_neg hp.1, hp.2, if_true]
  | [⟨d, p, false, s⟩], h, l, r, x, n, hat, hx, hk => absurd hk.2.2.1 (by simp [topBlack])
  | ⟨d, p, false, s⟩ :: ⟨d2, g, cg, u⟩ :: k, h, l, r, x, n, hat, hx, hk => by
    obtain ⟨hs, hsb, hc, hk⟩ := hk
    simp only [topBlack] at hc
    subst hc
    obtain ⟨hu, hk⟩ := hk
    obtain ⟨L, hL⟩ : ∃ L, (plug (⟨d, p, false, s⟩ :: ⟨d2, g, true, u⟩ :: k) (.node l x false r)).inorder = L := ⟨_, rfl⟩
    have hres : (∃ h2 l2 r2, (∀ fuel, fixup cb (fuel + 1) h x = fixup cb fuel h2 g) ∧ At h2 k (.node l2 g false r2) ∧ RB (.node l2 g false r2) (n + 1) ∧
      (plug k (.node l2 g false r2)).inorder = L ∧ Others h h2 L ∧
      pot (plug k (.node l2 g false r2)) + 1 ≤ pot (plug (⟨d, p, false, s⟩ :: ⟨d2, g, true, u⟩ :: k) (.node l x false r)) + bonus k) ∨
      DoneP (fixup cb (0 + 1) h x) h L (pot (plug (⟨d, p, false, s⟩ :: ⟨d2, g, true, u⟩ :: k) (.node l x false r)) + 2) := by
      cases d2
      · exact fixup_right cb hat hx hs hsb hu hk hL
      · exact fixup_left cb hat hx hs hsb hu hk hL
    have hc : (if topBlack (⟨d, p, false, s⟩ :: ⟨d2, g, true, u⟩ :: k) = true then 1 else 3) = 3 := by simp [topBlack]
    rw [hc]
    rcases hres with ⟨h2, l2, r2, e, a2, rb2, _, _, hp⟩ | ⟨h', t', e, q1, _, _, _, q2⟩
    · obtain ⟨f, h3, t3, e3, q1, q2⟩ := fixup_pot cb k a2 rb2 hk
      refine ⟨f + 1, h3, t3, (e f).trans e3, q1, ?_⟩
      unfold bonus at hp
      split at q2 <;> simp_all <;> omega
    · exact ⟨0 + 1, h', t', e, q1, by omega⟩

/-- The rounds of a deletion are paid by what the tree had saved and three more. -/
theorem erase_pot (cb : Cb α) : ∀ (k : Ctx) {h : Heap α} {t : Tree} {n : Nat},
    At h k t → k ≠ [] → RB t n → t.isBlack = true → OKC k (n + 1) →
    ∃ f h' t', eraseLoop cb f h t.top (up k) = some h' ∧ Holds h' t' ∧ f + pot t' ≤ pot (plug k t) + 3
  | [], h, t, n, _, hk0, _, _, _ => absurd rfl hk0
  | ⟨d, p, cp, S⟩ :: k, h, t, n, hat, _, ht, htb, hk => by
    obtain ⟨L, hL⟩ : ∃ L, (plug (⟨d, p, cp, S⟩ :: k) t).inorder = L := ⟨_, rfl⟩
    have hres : StepDoneP (eraseStep cb h t.top p) h L p cp k n (pot (plug (⟨d, p, cp, S⟩ :: k) t)) := by
      cases d
      · exact eraseStep_right cb (at_down_right.2 hat) ht htb hk hL
      · exact eraseStep_left cb (at_down_left.2 hat) ht htb hk hL
    have hp : p ≠ 0 := by
      obtain ⟨hk0, _, _⟩ := hat
      cases d <;> exact hk0.1
    have hup : up (⟨d, p, cp, S⟩ :: k) = p := rfl
    rw [hup]
    rcases hres with ⟨h2, t2, q1, q2, q3, q4, q5, q6⟩ | ⟨h2, l2, r2, q1, _, q2, q3, q4, q5, q6, q7, q8⟩
    · refine ⟨0 + 1, h2, t2, ?_, q2, by omega⟩
      rw [eraseLoop, if_neg hp, q1]
    · obtain ⟨f, h3, t3, e3, w1, w2⟩ := erase_pot cb k q3 q2 q5 rfl q6
      refine ⟨f + 1, h3, t3, ?_, w1, by omega⟩
      rw [eraseLoop, if_neg hp, q1]
      exact e3

theorem fixup_more (cb : Cb α) : ∀ (f m : Nat) {h h' : Heap α} {x : Addr}, fixup cb f h x = some h' → fixup cb (f + m) h x = some h'
  | 0, m, h, h', x, e => by simp [fixup] at e
  | f + 1, m, h, h', x, e => by
    have ih : ∀ {h : Heap α} {x : Addr}, fixup cb f h x = some h' → fixup cb (f + m) h x = some h' := fixup_more cb f m
    rw [show f + 1 + m = (f + m) + 1 by omega]
    rw [fixup] at e ⊢
    dsimp only at e ⊢
    grind

theorem eraseLoop_more (cb : Cb α) : ∀ (f m : Nat) {h h' : Heap α} {n p : Addr}, eraseLoop cb f h n p = some h' → eraseLoop cb (f + m) h n p = some h'
  | 0, m, h, h', n, p, e => by simp [eraseLoop] at e
  | f + 1, m, h, h', n, p, e => by
    rw [show f + 1 + m = (f + m) + 1 by omega]
    rw [eraseLoop] at e ⊢
    split
    · rename_i hp; rw [if_pos hp] at e; exact e
    · rename_i hp; rw [if_neg hp] at e
      cases hs : eraseStep cb h n p with
      | none => rw [hs] at e; cases e
      | some r =>
        rw [hs] at e
        cases r with
        | stop g => exact e
        | again g a b => exact eraseLoop_more cb f m e

/-- A heap holds one tree. -/
theorem rep_unique {h : Heap α} : ∀ {t t' : Tree} {p : Addr}, Rep h p t → Rep h p t' → t.top = t'.top → t = t'
  | .nil, .nil, _, _, _, _ => rfl
  | .nil, .node l a c r, p, _, h2, e => absurd e.symm h2.1
  | .node l a c r, .nil, p, h1, _, e => absurd e h1.1
  | .node l a c r, .node l' a' c' r', p, h1, h2, e => by
    obtain rfl : a = a' := e
    obtain ⟨_, _, a3, a4, a5, a6, a7⟩ := h1
    obtain ⟨_, _, b3, b4, b5, b6, b7⟩ := h2
    rw [rep_unique a6 b6 (a3.symm.trans b3), rep_unique a7 b7 (a4.symm.trans b4), ← a5, ← b5]

theorem holds_unique {h : Heap α} {t t' : Tree} (h1 : Holds h t) (h2 : Holds h t') : t = t' :=
  rep_unique h1.2.1 h2.2.1 (h1.1.symm.trans h2.1)

theorem rb_unique : ∀ (t : Tree) {n m : Nat}, RB t n → RB t m → n = m
  | .nil, n, m, h1, h2 => by rw [show n = 0 from h1, show m = 0 from h2]
  | .node l a true r, n, m, h1, h2 => by
    obtain ⟨n', rfl, h1, _⟩ := h1
    obtain ⟨m', rfl, h2, _⟩ := h2
    rw [rb_unique l h1 h2]
  | .node l a false r, n, m, h1, h2 => rb_unique l h1.2.2.1 h2.2.2.1

theorem not_redBlack {k : Ctx} (hk : k ≠ []) (h1 : OKC k 1) : ¬ RedBlack (plug k .nil) := by
  intro h
  obtain ⟨n, h2, h3, _⟩ := redBlack_plug k .nil h
  have hn : n = 0 := h3
  subst hn
  rcases k with _ | ⟨⟨d, a, c, s⟩, k⟩
  · exact hk rfl
  · have := rb_unique s (n := 1) (m := 0) (by cases c <;> exact h1.1) (by cases c <;> exact h2.1)
    omega

/-- Putting the only child of a node in its place: what the tree has saved afterwards. -/
theorem splice_pot (K : Ctx) {s : Addr} {cs : Bool} {R o : Tree} (ho : o = .node .nil s cs R ∨ o = .node R s cs .nil) (hrb : RedBlack (plug K o)) :
    pot (plug K (R.recolor true)) ≤ pot (plug K o) + 3 ∧ (RedBlack (plug K (R.recolor true)) ∨ pot (plug K (R.recolor true)) + 1 ≤ pot (plug K o)) := by
  obtain ⟨n, hK, hn, htop⟩ := redBlack_plug K o hrb
  have hob : o.isBlack = cs := by rcases ho with rfl | rfl <;> rfl
  have hop : pot o = weight cs true R.isBlack + pot R := by
    rcases ho with rfl | rfl
    · simp [pot, Tree.isBlack]
    · show weight cs R.isBlack true + pot R + 0 = _
      rw [weight_comm]; rfl
  obtain ⟨m, hR, hnm, hm⟩ : ∃ m, RB R m ∧ (if cs = true then n = m + 1 else n = m ∧ R.isBlack = true) ∧ m = 0 := by
    rcases ho with rfl | rfl
    · cases cs with
      | true => obtain ⟨m, rfl, r1, r2⟩ := hn; exact ⟨m, r2, by simp, r1⟩
      | false => exact ⟨n, hn.2.2.2, by simp [hn.2.1], hn.2.2.1⟩
    · cases cs with
      | true => obtain ⟨m, rfl, r1, r2⟩ := hn; exact ⟨m, r1, by simp, r2⟩
      | false => exact ⟨n, hn.2.2.1, by simp [hn.1], hn.2.2.2⟩
  subst hm
  have i1 := potC_black K
  rw [pot_plug, pot_plug, hop, hob]
  rcases rb_zero hR with rfl | ⟨a, rfl⟩
  · cases cs with
    | true =>
      simp only [Tree.recolor, pot, weight, Tree.isBlack]; simp; omega
    | false =>
      simp only [Bool.false_eq_true, if_false] at hnm
      refine ⟨?_, Or.inl (plug_redBlack K _ n hK (by rw [hnm.1]; rfl) (Or.inl rfl))⟩
      simp only [Tree.recolor, pot, weight, Tree.isBlack]; simp; omega
  · cases cs with
    | true =>
      simp only [if_true] at hnm
      subst hnm
      refine ⟨?_, Or.inl (plug_redBlack K _ 1 hK ⟨0, rfl, rfl, rfl⟩ (Or.inl rfl))⟩
      simp only [Tree.recolor, pot, weight, Tree.isBlack]; simp; omega
    | false => simp [Tree.isBlack] at hnm

theorem potC_addr : ∀ (P : Ctx) {k : Ctx} {d : Bool} {x s : Addr} {c : Bool} {l : Tree} (b : Bool), potC (P ++ ⟨d, x, c, l⟩ :: k) b = potC (P ++ ⟨d, s, c, l⟩ :: k) b
  | [], _, _, _, _, _, _, _ => rfl
  | ⟨_, _, c, _⟩ :: P, k, d, x, s, c', l, b => by simp only [List.cons_append, potC]; rw [potC_addr P (k := k) (d := d) (x := x) (s := s) (c := c') (l := l) c]

theorem redBlack_addr (P : Ctx) {k : Ctx} {d : Bool} {x s : Addr} {c : Bool} {l t : Tree} (h : RedBlack (plug (P ++ ⟨d, x, c, l⟩ :: k) t)) : RedBlack (plug (P ++ ⟨d, s, c, l⟩ :: k) t) := by
  obtain ⟨n, h1, h2, h3⟩ := redBlack_plug _ t h
  refine plug_redBlack _ t n (OKC_addr P h1) h2 (h3.imp id fun e => ?_)
  cases P <;> exact e

/-- Taking a node out. -/
theorem remove_pot (cb : Cb α) {h : Heap α} {t : Tree} {x : Addr} {fuel : Nat} (hh : Holds h t) (hrb : RedBlack t) (hx : x ∈ t.inorder) (hf : t.height ≤ fuel) :
    ∃ h2 reb t2, remove cb fuel h x = some (h2, reb) ∧ Holds h2 t2 ∧ pot t2 ≤ pot t + 3 ∧
      (reb ≠ 0 → pot t2 + 1 ≤ pot t ∧ ∃ k2, k2 ≠ [] ∧ reb = up k2 ∧ t2 = plug k2 .nil ∧ OKC k2 1) := by
  obtain ⟨k, l, c, r, rfl⟩ := exists_ctx t hx
  obtain ⟨h2, reb, e, ho, hR, hS⟩ := remove_shape (fuel := fuel) cb (at_iff.2 hh) hrb hf
  have key : ∃ t2, Holds h2 t2 ∧ pot t2 ≤ pot (plug k (.node l x c r)) + 3 ∧ (RedBlack t2 ∨ pot t2 + 1 ≤ pot (plug k (.node l x c r))) := by
    have two : ∀ {P : Ctx} {s : Addr} {cs : Bool} {R : Tree} {g : Heap α}, r = plug P (.node .nil s cs R) → At g (P ++ ⟨false, s, c, l⟩ :: k) (R.recolor true) →
        h2 = cb.doPropagate g s 0 → ∃ t2, Holds h2 t2 ∧ pot t2 ≤ pot (plug k (.node l x c r)) + 3 ∧ (RedBlack t2 ∨ pot t2 + 1 ≤ pot (plug k (.node l x c r))) := by
      intro P s cs R g hr hg h2e
      subst h2e
      have et : plug k (.node l x c r) = plug (P ++ ⟨false, x, c, l⟩ :: k) (.node .nil s cs R) := by rw [plug_append, ← hr]; rfl
      have ep : pot (plug k (.node l x c r)) = pot (plug (P ++ ⟨false, s, c, l⟩ :: k) (.node .nil s cs R)) := by
        rw [et, pot_plug, pot_plug, potC_addr P]
      rw [ep]
      rw [et] at hrb
      obtain ⟨a1, a2⟩ := splice_pot (P ++ ⟨false, s, c, l⟩ :: k) (Or.inl rfl) (redBlack_addr P hrb)
      exact ⟨_, at_iff.1 (at_aug _ hg), a1, a2⟩
    rcases hS with ⟨u, g, hu, hg, _, rfl⟩ | ⟨s, cs, R, g, hr, hg, _, h2e⟩ | ⟨P, s, cs, R, g1, g, _, _, hr, hg, _, _, _, _, _, h2e⟩
    · obtain ⟨a1, a2⟩ := splice_pot k (s := x) (cs := c) (R := u) (o := .node l x c r) (by rcases hu with ⟨rfl, rfl⟩ | ⟨rfl, rfl⟩ <;> simp) hrb
      exact ⟨_, at_iff.1 (at_aug _ hg), a1, a2⟩
    · exact two (P := []) hr hg h2e
    · exact two hr hg h2e
  obtain ⟨t2, k1, k2, k3⟩ := key
  refine ⟨h2, reb, t2, e, k1, k2, ?_⟩
  · intro h0
    rcases hR with ⟨q, _⟩ | ⟨K, q1, q2, q3, q4, q5, _⟩
    · exact absurd q h0
    · have e2 := holds_unique k1 (at_iff.1 q3)
      refine ⟨k3.resolve_left fun hc => not_redBlack q1 q4 (e2 ▸ hc), K, q1, q2, e2, q4⟩

theorem fixup_same (cb : Cb α) {f g : Nat} {h a b : Heap α} {x : Addr} (h1 : fixup cb f h x = some a) (h2 : fixup cb g h x = some b) : a = b := by
  rcases Nat.le_total f g with hle | hle
  · obtain ⟨m, rfl⟩ := Nat.exists_eq_add_of_le hle
    exact Option.some.inj ((fixup_more cb f m h1).symm.trans h2)
  · obtain ⟨m, rfl⟩ := Nat.exists_eq_add_of_le hle
    exact Option.some.inj (h1.symm.trans (fixup_more cb g m h2))

theorem eraseLoop_same (cb : Cb α) {f g : Nat} {h a b : Heap α} {n p : Addr} (h1 : eraseLoop cb f h n p = some a) (h2 : eraseLoop cb g h n p = some b) : a = b := by
  rcases Nat.le_total f g with hle | hle
  · obtain ⟨m, rfl⟩ := Nat.exists_eq_add_of_le hle
    exact Option.some.inj ((eraseLoop_more cb f m h1).symm.trans h2)
  · obtain ⟨m, rfl⟩ := Nat.exists_eq_add_of_le hle
    exact Option.some.inj (h1.symm.trans (eraseLoop_more cb g m h2))

/-! ## The property -/

/-- A call whose rebalancing loop may make at most `rounds` rounds: with one more it has no result. `depth` bounds the loops that go down to the place of the node. -/
def runIn (cmp : Addr → Addr → Int) (cb : Cb α) (depth rounds : Nat) (h : Heap α) : Op → Option (Heap α)
  | .insert x => match parent h (cmp x) depth with
    | none => none
    | some none => some h
    | some (some (l, p, _)) => insertNode cb rounds h p l x
  | .delete x => match remove cb depth h x with
    | none => none
    | some (h, rebalance) => (if rebalance ≠ 0 then erase cb rounds h rebalance else some h).map (fun h => poison h x)

/-- The same bound for both kinds of loops makes it the call of the other properties. -/
theorem runIn_run (cmp : Addr → Addr → Int) (cb : Cb α) (fuel : Nat) (h : Heap α) (op : Op) : runIn cmp cb fuel fuel h op = op.run cmp cb fuel h := by
  cases op with
  | insert x =>
    show _ = (insert cb fuel h x (cmp x)).map (·.1)
    unfold insert runIn
    dsimp only
    split
    · rename_i e; rw [e]; rfl
    · rename_i e; rw [e]; rfl
    · rename_i e; rw [e]; simp [Option.map_map, Function.comp_def]
  | delete x => rfl

/-- A history of calls, each with the rounds it may make. -/
def runAllIn (cmp : Addr → Addr → Int) (cb : Cb α) (depth : Nat) : List (Op × Nat) → Heap α → Option (Heap α)
  | [], h => some h
  | (o, rounds) :: os, h => (runIn cmp cb depth rounds h o).bind (runAllIn cmp cb depth os)

theorem step_rounds (cb : Cb α) {cmp : Addr → Addr → Int} (o : Order cmp) {h : Heap α} {t : Tree} {p : Op} {fuel : Nat}
    (hh : Holds h t) (hrb : RedBlack t) (hs : Ascending cmp t.inorder) (hp : p.ok t.inorder) (hf : t.height < fuel) :
    ∃ f h' t', runIn cmp cb fuel f h p = some h' ∧ p.run cmp cb fuel h = some h' ∧ Holds h' t' ∧ RedBlack t' ∧ t'.inorder = p.spec cmp t.inorder ∧ Ascending cmp t'.inorder ∧
      t'.size ≤ t.size + 1 ∧ f + pot t' ≤ pot t + 3 := by
  obtain ⟨h', t', e, q1, q2, q3, q4, q5⟩ := step_correct cb o (fuel := fuel) hh hrb hs hp hf
  suffices hg : ∃ f, runIn cmp cb fuel f h p = some h' ∧ f + pot t' ≤ pot t + 3 by
    obtain ⟨f, e', hf⟩ := hg
    exact ⟨f, h', t', e', e, q1, q2, q3, q4, q5, hf⟩
  rw [← runIn_run] at e
  cases p with
  | insert x =>
    obtain ⟨hx, hxt⟩ := hp
    unfold runIn at e ⊢
    dsimp only at e ⊢
    rcases parent_holds (c := cmp x) (fuel := fuel) hh (o.fits hs x) (by omega) with ⟨ep, he⟩ | ⟨link, p, lm, ep, k, rfl, rfl, rfl, _, h1, h2⟩
    · simp only [ep] at e ⊢
      cases e
      exact ⟨0, rfl, by rw [holds_unique q1 hh]; omega⟩
    · simp only [ep] at e ⊢
      obtain ⟨hA, ho⟩ := link_at (at_iff.2 hh) hx hxt
      obtain ⟨n, hOK, hRB, _⟩ := redBlack_plug k _ hrb
      have hn : n = 0 := hRB
      subst hn
      obtain ⟨f, g, t2, e2, w1, w2⟩ := fixup_pot cb k hA (n := 0) ⟨rfl, rfl, rfl, rfl⟩ hOK
      obtain rfl := fixup_same cb e2 e
      refine ⟨f, e2, ?_⟩
      rw [holds_unique q1 w1]
      have := potC_red k
      rw [pot_plug] at w2 ⊢
      unfold bonus at this
      simp only [pot, isBlack_node, weight, Tree.isBlack, Bool.false_eq_true, if_false] at w2 ⊢
      by_cases htb : topBlack k = true
      · rw [if_pos htb] at this w2; omega
      · rw [if_neg htb] at this w2; omega
  | delete x =>
    obtain ⟨h2, reb, t2, e1, w1, w2, w4⟩ := remove_pot (fuel := fuel) cb hh hrb hp (by omega)
    unfold runIn at e ⊢
    simp only [e1] at e ⊢
    have hxn : x ∉ t'.inorder := by
      rw [q3]
      exact fun hm => (hh.2.2.mem_erase_iff.1 hm).1 rfl
    rw [Option.map_eq_some_iff] at e
    obtain ⟨g, eg, rfl⟩ := e
    have hg : Holds g t' := by
      refine q1.frame (fun a ha => ?_) rfl
      have hax : a ≠ x := fun e => hxn (e ▸ ha)
      simp [Agree, poison, Heap.setLeft, Heap.setRight, Heap.setPar, upd, hax]
    by_cases h0 : reb = 0
    · simp only [h0, ne_eq, not_true_eq_false, if_false] at eg ⊢
      cases eg
      refine ⟨0, rfl, ?_⟩
      rw [holds_unique hg w1]; omega
    · obtain ⟨w4, k2, z1, rfl, rfl, z4⟩ := w4 h0
      simp only [ne_eq, h0, not_false_eq_true, if_true] at eg ⊢
      obtain ⟨f, g2, t3, e3, y1, y2⟩ := erase_pot cb k2 (t := .nil) (n := 0) (at_iff.2 w1) z1 rfl rfl z4
      obtain rfl := eraseLoop_same cb e3 eg
      refine ⟨f, ?_, ?_⟩
      · show (eraseLoop cb f h2 Tree.nil.top (up k2)).map _ = _
        rw [e3]; rfl
      · rw [holds_unique hg y1]; omega

theorem history_rounds (cb : Cb α) {cmp : Addr → Addr → Int} (o : Order cmp) : ∀ (ops : List Op) {h : Heap α} {t : Tree} {fuel : Nat},
    Holds h t → RedBlack t → Ascending cmp t.inorder → okAll cmp ops t.inorder → 2 * Nat.log2 (t.size + ops.length + 1) < fuel →
    ∃ ps h' t', ps.map (·.1) = ops ∧ (ps.map (·.2)).sum + pot t' ≤ pot t + 3 * ops.length ∧ runAllIn cmp cb fuel ps h = some h' ∧ runAll cmp cb fuel ops h = some h' ∧
      Holds h' t' ∧ RedBlack t' ∧ t'.inorder = specAll cmp ops t.inorder
  | [], h, t, fuel, hh, hrb, hs, _, _ => ⟨[], h, t, rfl, by simp, rfl, rfl, hh, hrb, rfl⟩
  | p :: ops, h, t, fuel, hh, hrb, hs, hok, hf => by
    have hmono : ∀ {a b : Nat}, a ≤ b → 0 < a → Nat.log2 a ≤ Nat.log2 b := by
      intro a b hab ha
      exact (Nat.le_log2 (by omega)).2 (Nat.le_trans (Nat.log2_self_le (by omega)) hab)
    simp only [List.length_cons] at hf
    have hht := redBlack_height hrb
    have hm1 := hmono (a := t.size + 1) (b := t.size + (ops.length + 1) + 1) (by omega) (by omega)
    obtain ⟨f, h', t', e, e', q1, q2, q3, q4, q5, q6⟩ := step_rounds cb o (fuel := fuel) hh hrb hs hok.1 (by omega)
    have hm2 := hmono (a := t'.size + ops.length + 1) (b := t.size + (ops.length + 1) + 1) (by omega) (by omega)
    obtain ⟨ps, h2, t2, w0, w1, w2, w3, w4, w5, w6⟩ := history_rounds cb o ops (fuel := fuel) q1 q2 q4 (by rw [q3]; exact hok.2) (by omega)
    refine ⟨(p, f) :: ps, h2, t2, by simp [w0], ?_, ?_, ?_, w4, w5, by rw [w6, q3]; rfl⟩
    · simp only [List.map_cons, List.sum_cons, List.length_cons]; omega
    · rw [runAllIn, e]; exact w2
    · rw [runAll, e']; exact w3

/-- **C124.** Any history of allowed insertions and deletions, from an empty tree: if `m` calls are made, their rebalancing loops make at most `3 * m` rounds altogether, whatever the
size of the tree. For some bounds with that sum, one for each call, no call needs another round, and the result is that of the history. -/
theorem constant_rounds (cb : Cb α) {cmp : Addr → Addr → Int} (o : Order cmp) (ops : List Op) {h : Heap α} {fuel : Nat} (h0 : h.root = 0)
    (hok : okAll cmp ops []) (hf : 2 * Nat.log2 (ops.length + 1) < fuel) :
    ∃ ps h' t', ps.map (·.1) = ops ∧ (ps.map (·.2)).sum ≤ 3 * ops.length ∧ runAllIn cmp cb fuel ps h = some h' ∧ runAll cmp cb fuel ops h = some h' ∧
      Holds h' t' ∧ RedBlack t' ∧ t'.inorder = specAll cmp ops [] := by
  obtain ⟨ps, h', t', q1, q2, q3, q4, q5, q6, q7⟩ := history_rounds cb o ops (t := .nil) (h := h) (fuel := fuel) ⟨h0, trivial, by simp [Tree.inorder]⟩ ⟨rfl, 0, rfl⟩
    (by simp [Ascending, Tree.inorder]) hok (by simpa [Tree.size, Tree.inorder] using hf)
  refine ⟨ps, h', t', q1, ?_, q3, q4, q5, q6, q7⟩
  simp only [pot] at q2; omega

/-- A history that `constant_rounds` speaks of. -/
example : Order (fun a b => (a : Int) - b) ∧ okAll (fun a b => (a : Int) - b) [.insert 10, .insert 30, .insert 20, .insert 40, .delete 20] [] := by
  refine ⟨⟨fun a b => by omega, fun a b c => by omega⟩, ?_⟩
  simp [okAll, Op.ok, Op.spec]

/-- The bounds matter: the fourth of these insertions recolours once and makes a second round, and has no result if it may make only one. -/
example : ((runAllIn (fun a b => (a : Int) - b) Rotate.traced 9 [(.insert 10, 1), (.insert 30, 1), (.insert 20, 1), (.insert 40, 2)] Rotate.bare).isSome,
    (runAllIn (fun a b => (a : Int) - b) Rotate.traced 9 [(.insert 10, 1), (.insert 30, 1), (.insert 20, 1), (.insert 40, 1)] Rotate.bare).isSome) = (true, false) := by
  decide +kernel

end Bfdev.Rbtree.Amortized

import Verif.Rbtree.Lemmas
/-!
Insertion: linking a red leaf and `bfdev_rb_fixup`.
-/
set_option linter.unusedSimpArgs false
namespace Bfdev.Rbtree
variable {α : Type}

/-- The operation ends, in a heap that holds a red-black tree with the in-order `L`, and only the nodes of `L` were touched. -/
def Done (res : Option (Heap α)) (h : Heap α) (L : List Addr) : Prop :=
  ∃ h' t', res = some h' ∧ Holds h' t' ∧ t'.inorder = L ∧ RedBlack t' ∧ Others h h' L

theorem Others.of_eq {h h' : Heap α} {l L : List Addr} (o : Others h h' l) (e : l = L) : Others h h' L := e ▸ o

theorem fixup_left (cb : Cb α) (fuel : Nat) {h : Heap α} {k : Ctx} {l r s u : Tree} {x p g : Addr} {d : Bool} {n : Nat} {L : List Addr}
    (hat : At h (⟨d, p, false, s⟩ :: ⟨true, g, true, u⟩ :: k) (.node l x false r)) (hx : RB (.node l x false r) n) (hs : RB s n) (hsb : s.isBlack = true)
    (hu : RB u n) (hk : OKC k (n + 1)) (hL : (plug (⟨d, p, false, s⟩ :: ⟨true, g, true, u⟩ :: k) (.node l x false r)).inorder = L) :
    (∃ h2 l2 r2, fixup cb (fuel + 1) h x = fixup cb fuel h2 g ∧ At h2 k (.node l2 g false r2) ∧ RB (.node l2 g false r2) (n + 1) ∧
      (plug k (.node l2 g false r2)).inorder = L ∧ Others h h2 L) ∨ Done (fixup cb (fuel + 1) h x) h L := by
  have hat0 := hat
  obtain ⟨hk0, ⟨x1, x2, x3, x4, x5, x6, x7⟩, hnd⟩ := hat
  have hp : p ≠ 0 ∧ h.par p = g ∧ h.black p = false ∧ (if d = true then h.left p = x ∧ h.right p = s.top else h.right p = x ∧ h.left p = s.top) ∧
      RepC h (⟨true, g, true, u⟩ :: k) p := by
    cases d <;> · obtain ⟨a1, a2, a3, a4, a5, a6, a7⟩ := hk0; exact ⟨a1, a2, a5, by simp [a3, a4, Tree.top], a7⟩
  obtain ⟨p1, p2, p3, p4, g1, g2, g3, g4, g5, g6, g7⟩ := hp
  have hup : up (⟨d, p, false, s⟩ :: ⟨true, g, true, u⟩ :: k) = p := rfl
  rw [hup] at x2
  have hnd2 : p ≠ x ∧ p ≠ g ∧ x ≠ g ∧ p ∉ u.inorder ∧ p ∉ s.inorder ∧ x ∉ s.inorder := by
    cases d <;> · simp only [pre, post, Tree.inorder, List.nodup_append, List.nodup_cons, List.mem_append, List.mem_cons, List.mem_singleton] at hnd; grind
  obtain ⟨n1, n2, n3, n4, n5, n6⟩ := hnd2
  have hup : u.top ≠ p := fun e => by
    by_cases hz : u.top = 0
    · exact p1 (by rw [← e, hz])
    · exact n4 (e ▸ top_mem hz)
  have hsx : s.top ≠ x := fun e => by
    by_cases hz : s.top = 0
    · exact x1 (by rw [← e, hz])
    · exact n6 (e ▸ top_mem hz)
  obtain ⟨xb1, xb2, xr1, xr2⟩ := hx
  cases hub : u.isBlack with
  | false =>
    left
    cases u with
    | nil => simp [Tree.isBlack] at hub
    | node ul ua uc ur =>
      simp only [Tree.isBlack] at hub
      subst hub
      obtain ⟨ub1, ub2, ur1, ur2⟩ := hu
      obtain ⟨u1, u2, u3, u4, u5, u6, u7⟩ := g6
      have hP : ∃ t : Tree × Tree, plug (⟨d, p, false, s⟩ :: ⟨true, g, true, .node ul ua false ur⟩ :: k) (.node l x false r) = plug k (.node (.node t.1 p false t.2) g true (.node ul ua false ur)) ∧
          RB t.1 n ∧ RB t.2 n := by
        cases d
        · exact ⟨(s, .node l x false r), rfl, hs, xb1, xb2, xr1, xr2⟩
        · exact ⟨(.node l x false r, s), rfl, ⟨xb1, xb2, xr1, xr2⟩, hs⟩
      obtain ⟨⟨tl, tr⟩, e, rl, rr⟩ := hP
      simp only at e rl rr
      have hA : At h k (.node (.node tl p false tr) g true (.node ul ua false ur)) := by rw [at_iff, ← e, ← at_iff]; exact hat0
      obtain ⟨hA1, o1⟩ := (at_down_right.1 hA).paint true
      obtain ⟨hA2, o2⟩ := (at_down_left.1 (at_down_right.2 hA1)).paint true
      obtain ⟨hA3, o3⟩ := (at_down_left.2 hA2).paint false
      rw [e] at hL
      replace o1 := o1.of_eq (L := L) (by rw [← hL]; simp [inorder_plug, Tree.inorder, plug, pre, post, Tree.recolorOpt])
      replace o2 := o2.of_eq (L := L) (by rw [← hL]; simp [inorder_plug, Tree.inorder, plug, pre, post, Tree.recolorOpt])
      replace o3 := o3.of_eq (L := L) (by rw [← hL]; simp [inorder_plug, Tree.inorder, plug, pre, post, Tree.recolorOpt])
      refine ⟨_, _, _, ?_, hA3, ⟨rfl, rfl, ⟨n, rfl, rl, rr⟩, n, rfl, ur1, ur2⟩, ?_, (o1.trans o2).trans o3⟩
      · simp only [Tree.top] at hup g3 g4
        simp only [fixup, if_neg x1, x2, if_neg p1, p3, p2, if_neg g1, g4, hup, u1, u5, ne_eq, not_false_eq_true, true_and, if_true, Bool.false_eq_true, if_false, hup]
      · rw [← hL]; simp [inorder_plug, Tree.inorder]
  | true =>
    right
    have hnr : ¬ (u.top ≠ 0 ∧ h.black u.top = false) := by
      rintro ⟨hz, hb⟩
      cases u with
      | nil => exact hz rfl
      | node ul ua uc ur =>
        simp only [Tree.isBlack] at hub
        obtain ⟨u1, u2, u3, u4, u5, u6, u7⟩ := g6
        simp only [Tree.top] at hb
        rw [hb] at u5; rw [← u5] at hub; simp at hub
    have hf : fixup cb (fuel + 1) h x = (do
        let h ← if x = h.right p then (leftRotate cb h p none (some true)).map (·.1) else some h
        (rightRotate cb h g (some false) (some true)).map (·.1)) := by
      simp only [fixup, if_neg x1, x2, if_neg p1, p3, p2, if_neg g1, g4, if_neg hnr, ne_eq, hup, not_false_eq_true, if_true, Bool.false_eq_true, if_false]
    rw [hf]
    cases d with
    | true =>
      simp only [if_true] at p4
      rw [if_neg (by rw [p4.2]; exact hsx.symm)]
      have hA : At h k (.node (.node (.node l x false r) p false s) g true u) := at_iff.2 (at_iff.1 hat0 :)
      obtain ⟨h2, e2, hA2, o2⟩ := rightRotate_at cb (some false) (some true) hA
      replace o2 := o2.of_eq (L := L) (by rw [← hL]; simp [inorder_plug, Tree.inorder, plug, pre, post, Tree.recolorOpt])
      refine ⟨h2, _, ?_, at_iff.1 hA2, ?_, ?_, o2⟩
      · simp [e2]
      · rw [← hL]; simp [inorder_plug, Tree.inorder, plug, Tree.recolorOpt]
      · refine plug_redBlack k _ (n + 1) hk ?_ (Or.inl rfl)
        simp only [Option.isSome_some, if_true, Tree.recolorOpt, recolor_self hsb, Option.getD_some]
        exact ⟨n, rfl, ⟨xb1, xb2, xr1, xr2⟩, hsb, hub, hs, hu⟩
    | false =>
      simp only [Bool.false_eq_true, if_false] at p4
      rw [if_pos p4.1.symm]
      have hA : At h (⟨true, g, true, u⟩ :: k) (.node s p false (.node l x false r)) := at_iff.2 (at_iff.1 hat0 :)
      obtain ⟨h1, e1, hA1, o1⟩ := leftRotate_at cb none (some true) hA
      obtain ⟨h2, e2, hA2, o2⟩ := rightRotate_at cb (some false) (some true) (at_down_left.2 hA1)
      replace o1 := o1.of_eq (L := L) (by rw [← hL]; simp [inorder_plug, Tree.inorder, plug, pre, post, Tree.recolorOpt])
      replace o2 := o2.of_eq (L := L) (by rw [← hL]; simp [inorder_plug, Tree.inorder, plug, pre, post, Tree.recolorOpt])
      simp only [Option.isSome_some, Option.isSome_none, if_true, Tree.recolorOpt, recolor_self xb1, recolor_self xb2, Option.getD_some, Option.getD_none, Bool.false_eq_true, if_false] at hA2
      refine ⟨h2, _, ?_, at_iff.1 hA2, ?_, ?_, o1.trans o2⟩
      · simp [e1, e2]
      · rw [← hL]; simp [inorder_plug, Tree.inorder, plug, Tree.recolorOpt]
      · refine plug_redBlack k _ (n + 1) hk ?_ (Or.inl rfl)
        exact ⟨n, rfl, ⟨hsb, xb1, hs, xr1⟩, xb2, hub, xr2, hu⟩

theorem fixup_right (cb : Cb α) (fuel : Nat) {h : Heap α} {k : Ctx} {l r s u : Tree} {x p g : Addr} {d : Bool} {n : Nat} {L : List Addr}
    (hat : At h (⟨d, p, false, s⟩ :: ⟨false, g, true, u⟩ :: k) (.node l x false r)) (hx : RB (.node l x false r) n) (hs : RB s n) (hsb : s.isBlack = true)
    (hu : RB u n) (hk : OKC k (n + 1)) (hL : (plug (⟨d, p, false, s⟩ :: ⟨false, g, true, u⟩ :: k) (.node l x false r)).inorder = L) :
    (∃ h2 l2 r2, fixup cb (fuel + 1) h x = fixup cb fuel h2 g ∧ At h2 k (.node l2 g false r2) ∧ RB (.node l2 g false r2) (n + 1) ∧
      (plug k (.node l2 g false r2)).inorder = L ∧ Others h h2 L) ∨ Done (fixup cb (fuel + 1) h x) h L := by
  have hat0 := hat
  obtain ⟨hk0, ⟨x1, x2, x3, x4, x5, x6, x7⟩, hnd⟩ := hat
  have hp : p ≠ 0 ∧ h.par p = g ∧ h.black p = false ∧ (if d = true then h.left p = x ∧ h.right p = s.top else h.right p = x ∧ h.left p = s.top) ∧
      RepC h (⟨false, g, true, u⟩ :: k) p := by
    cases d <;> · obtain ⟨a1, a2, a3, a4, a5, a6, a7⟩ := hk0; exact ⟨a1, a2, a5, by simp [a3, a4, Tree.top], a7⟩
  obtain ⟨p1, p2, p3, p4, g1, g2, g3, g4, g5, g6, g7⟩ := hp
  have hup : up (⟨d, p, false, s⟩ :: ⟨false, g, true, u⟩ :: k) = p := rfl
  rw [hup] at x2
  have hnd2 : p ≠ x ∧ p ≠ g ∧ x ≠ g ∧ p ∉ u.inorder ∧ p ∉ s.inorder ∧ x ∉ s.inorder := by
    cases d <;> · simp only [pre, post, Tree.inorder, List.nodup_append, List.nodup_cons, List.mem_append, List.mem_cons, List.mem_singleton] at hnd; grind
  obtain ⟨n1, n2, n3, n4, n5, n6⟩ := hnd2
  have hup : u.top ≠ p := fun e => by
    by_cases hz : u.top = 0
    · exact p1 (by rw [← e, hz])
    · exact n4 (e ▸ top_mem hz)
  have hsx : s.top ≠ x := fun e => by
    by_cases hz : s.top = 0
    · exact x1 (by rw [← e, hz])
    · exact n6 (e ▸ top_mem hz)
  obtain ⟨xb1, xb2, xr1, xr2⟩ := hx
  cases hub : u.isBlack with
  | false =>
    left
    cases u with
    | nil => simp [Tree.isBlack] at hub
    | node ul ua uc ur =>
      simp only [Tree.isBlack] at hub
      subst hub
      obtain ⟨ub1, ub2, ur1, ur2⟩ := hu
      obtain ⟨u1, u2, u3, u4, u5, u6, u7⟩ := g6
      have hP : ∃ t : Tree × Tree, plug (⟨d, p, false, s⟩ :: ⟨false, g, true, .node ul ua false ur⟩ :: k) (.node l x false r) = plug k (.node (.node ul ua false ur) g true (.node t.1 p false t.2)) ∧
          RB t.1 n ∧ RB t.2 n := by
        cases d
        · exact ⟨(s, .node l x false r), rfl, hs, xb1, xb2, xr1, xr2⟩
        · exact ⟨(.node l x false r, s), rfl, ⟨xb1, xb2, xr1, xr2⟩, hs⟩
      obtain ⟨⟨tl, tr⟩, e, rl, rr⟩ := hP
      simp only at e rl rr
      have hA : At h k (.node (.node ul ua false ur) g true (.node tl p false tr)) := by rw [at_iff, ← e, ← at_iff]; exact hat0
      obtain ⟨hA1, o1⟩ := (at_down_left.1 hA).paint true
      obtain ⟨hA2, o2⟩ := (at_down_right.1 (at_down_left.2 hA1)).paint true
      obtain ⟨hA3, o3⟩ := (at_down_right.2 hA2).paint false
      rw [e] at hL
      replace o1 := o1.of_eq (L := L) (by rw [← hL]; simp [inorder_plug, Tree.inorder, plug, pre, post, Tree.recolorOpt])
      replace o2 := o2.of_eq (L := L) (by rw [← hL]; simp [inorder_plug, Tree.inorder, plug, pre, post, Tree.recolorOpt])
      replace o3 := o3.of_eq (L := L) (by rw [← hL]; simp [inorder_plug, Tree.inorder, plug, pre, post, Tree.recolorOpt])
      refine ⟨_, _, _, ?_, hA3, ⟨rfl, rfl, ⟨n, rfl, ur1, ur2⟩, n, rfl, rl, rr⟩, ?_, (o1.trans o2).trans o3⟩
      · simp only [Tree.top] at hup g3 g4
        simp only [fixup, if_neg x1, x2, if_neg p1, p3, p2, if_neg g1, g3, g4, ne_eq, not_true_eq_false, if_false, hup, u1, u5, ne_eq, not_false_eq_true, true_and, if_true, Bool.false_eq_true, if_false, hup]
      · rw [← hL]; simp [inorder_plug, Tree.inorder]
  | true =>
    right
    have hnr : ¬ (u.top ≠ 0 ∧ h.black u.top = false) := by
      rintro ⟨hz, hb⟩
      cases u with
      | nil => exact hz rfl
      | node ul ua uc ur =>
        simp only [Tree.isBlack] at hub
        obtain ⟨u1, u2, u3, u4, u5, u6, u7⟩ := g6
        simp only [Tree.top] at hb
        rw [hb] at u5; rw [← u5] at hub; simp at hub
    have hf : fixup cb (fuel + 1) h x = (do
        let h ← if x = h.left p then (rightRotate cb h p none (some true)).map (·.1) else some h
        (leftRotate cb h g (some false) (some true)).map (·.1)) := by
      simp only [fixup, if_neg x1, x2, if_neg p1, p3, p2, if_neg g1, g3, g4, ne_eq, not_true_eq_false, if_false, if_neg hnr, ne_eq, hup, not_false_eq_true, if_true, Bool.false_eq_true, if_false]
    rw [hf]
    cases d with
    | true =>
      simp only [if_true] at p4
      rw [if_pos p4.1.symm]
      have hA : At h (⟨false, g, true, u⟩ :: k) (.node (.node l x false r) p false s) := at_iff.2 (at_iff.1 hat0 :)
      obtain ⟨h1, e1, hA1, o1⟩ := rightRotate_at cb none (some true) hA
      obtain ⟨h2, e2, hA2, o2⟩ := leftRotate_at cb (some false) (some true) (at_down_right.2 hA1)
      replace o1 := o1.of_eq (L := L) (by rw [← hL]; simp [inorder_plug, Tree.inorder, plug, pre, post, Tree.recolorOpt])
      replace o2 := o2.of_eq (L := L) (by rw [← hL]; simp [inorder_plug, Tree.inorder, plug, pre, post, Tree.recolorOpt])
      simp only [Option.isSome_some, Option.isSome_none, if_true, Tree.recolorOpt, recolor_self xb1, recolor_self xb2, Option.getD_some, Option.getD_none, Bool.false_eq_true, if_false] at hA2
      refine ⟨h2, _, ?_, at_iff.1 hA2, ?_, ?_, o1.trans o2⟩
      · simp [e1, e2]
      · rw [← hL]; simp [inorder_plug, Tree.inorder, plug, Tree.recolorOpt]
      · refine plug_redBlack k _ (n + 1) hk ?_ (Or.inl rfl)
        exact ⟨n, rfl, ⟨hub, xb1, hu, xr1⟩, xb2, hsb, xr2, hs⟩
    | false =>
      simp only [Bool.false_eq_true, if_false] at p4
      rw [if_neg (by rw [p4.2]; exact hsx.symm)]
      have hA : At h k (.node u g true (.node s p false (.node l x false r))) := at_iff.2 (at_iff.1 hat0 :)
      obtain ⟨h2, e2, hA2, o2⟩ := leftRotate_at cb (some false) (some true) hA
      replace o2 := o2.of_eq (L := L) (by rw [← hL]; simp [inorder_plug, Tree.inorder, plug, pre, post, Tree.recolorOpt])
      refine ⟨h2, _, ?_, at_iff.1 hA2, ?_, ?_, o2⟩
      · simp [e2]
      · rw [← hL]; simp [inorder_plug, Tree.inorder, plug, Tree.recolorOpt]
      · refine plug_redBlack k _ (n + 1) hk ?_ (Or.inl rfl)
        simp only [Option.isSome_some, if_true, Tree.recolorOpt, recolor_self hsb, Option.getD_some]
        exact ⟨n, rfl, ⟨hub, hsb, hu, hs⟩, xb1, xb2, xr1, xr2⟩

theorem fixup_at (cb : Cb α) : ∀ (fuel : Nat) (k : Ctx) {h : Heap α} {l r : Tree} {x : Addr} {n : Nat} {L : List Addr},
    At h k (.node l x false r) → RB (.node l x false r) n → OKC k n → k.length < fuel → (plug k (.node l x false r)).inorder = L → Done (fixup cb fuel h x) h L
  | 0, k, h, l, r, x, n, L, _, _, _, hf, _ => absurd hf (Nat.not_lt_zero _)
  | fuel + 1, [], h, l, r, x, n, L, hat, hx, hk, hf, hL => by
    obtain ⟨hA, o⟩ := hat.paint true
    have hat0 := hat
    obtain ⟨_, ⟨x1, x2, _⟩, _⟩ := hat
    refine ⟨_, _, ?_, at_iff.1 hA, ?_, ?_, o.of_eq (by rw [← hL]; simp [inorder_plug, pre, post])⟩
    · rw [fixup, if_neg x1, x2]; simp [up]
    · rw [← hL]; simp [inorder_plug, Tree.inorder]
    · exact ⟨rfl, n + 1, n, rfl, hx.2.2.1, hx.2.2.2⟩
  | fuel + 1, ⟨d, p, true, s⟩ :: k, h, l, r, x, n, L, hat, hx, hk, hf, hL => by
    have hat0 := hat
    obtain ⟨hk0, ⟨x1, x2, x3, x4, x5, x6, x7⟩, hnd⟩ := hat
    have hp : p ≠ 0 ∧ h.black p = true := by
      cases d <;> · obtain ⟨a1, a2, a3, a4, a5, a6, a7⟩ := hk0; exact ⟨a1, a5⟩
    refine ⟨h, _, ?_, at_iff.1 hat0, hL, plug_redBlack _ _ n hk hx (Or.inr rfl), Others.refl h L⟩
    have hup : up (⟨d, p, true, s⟩ :: k) = p := rfl
    rw [hup] at x2
    simp only [fixup, if_neg x1, x2, if_neg hp.1, hp.2, if_true]
  | fuel + 1, [⟨d, p, false, s⟩], h, l, r, x, n, L, hat, hx, hk, hf, hL => absurd hk.2.2.1 (by simp [topBlack])
  | fuel + 1, ⟨d, p, false, s⟩ :: ⟨d2, g, cg, u⟩ :: k, h, l, r, x, n, L, hat, hx, hk, hf, hL => by
    obtain ⟨hs, hsb, hc, hk⟩ := hk
    simp only [topBlack] at hc
    subst hc
    obtain ⟨hu, hk⟩ := hk
    have hres : (∃ h2 l2 r2, fixup cb (fuel + 1) h x = fixup cb fuel h2 g ∧ At h2 k (.node l2 g false r2) ∧ RB (.node l2 g false r2) (n + 1) ∧
      (plug k (.node l2 g false r2)).inorder = L ∧ Others h h2 L) ∨ Done (fixup cb (fuel + 1) h x) h L := by
      cases d2
      · exact fixup_right cb fuel hat hx hs hsb hu hk hL
      · exact fixup_left cb fuel hat hx hs hsb hu hk hL
    rcases hres with ⟨h2, l2, r2, e, a2, rb2, hL2, o2⟩ | hd
    · obtain ⟨h3, t3, e3, q1, q2, q3, q4⟩ := fixup_at cb fuel k a2 rb2 hk (by simp at hf; omega) hL2
      exact ⟨h3, t3, e.trans e3, q1, q2, q3, o2.trans q4⟩
    · exact hd

end Bfdev.Rbtree

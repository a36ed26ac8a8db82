import Verif.Augment.Spec
/-!
The summaries as a local rule of every node, and the effect of the callbacks on it. The proofs follow those for the interval tree (`Segtree/Local`,
`Segtree/Delete`), with any summary in place of the maximum.
-/
set_option linter.unusedSimpArgs false
set_option linter.unusedSectionVars false
namespace Bfdev.Augment
open Rbtree

variable {α : Type} [DecidableEq α] {E : Comb α} {f f' : Addr → α} {fuel : Nat}

/-- What a subtree keeps at its top. -/
def tv (f : Addr → α) : Tree → Option α
  | .nil => none
  | .node _ a _ _ => some (f a)

/-- The summary of every node is right, given those of its two subtrees. -/
def Loc (E : Comb α) (f : Addr → α) : Tree → Prop
  | .nil => True
  | .node l a _ r => f a = E a (tv f l) (tv f r) ∧ Loc E f l ∧ Loc E f r

/-- The same around a hole whose content keeps `v`. -/
def LocC (E : Comb α) (f : Addr → α) : Ctx → Option α → Prop
  | [], _ => True
  | ⟨true, a, _, s⟩ :: k, v => f a = E a v (tv f s) ∧ Loc E f s ∧ LocC E f k (some (f a))
  | ⟨false, a, _, s⟩ :: k, v => f a = E a (tv f s) v ∧ Loc E f s ∧ LocC E f k (some (f a))

theorem loc_plug : ∀ (k : Ctx) (t : Tree), Loc E f (plug k t) ↔ LocC E f k (tv f t) ∧ Loc E f t
  | [], t => by simp [plug, LocC]
  | ⟨true, a, c, s⟩ :: k, t => by rw [plug, loc_plug k]; simp only [LocC, Loc, tv]; grind
  | ⟨false, a, c, s⟩ :: k, t => by rw [plug, loc_plug k]; simp only [LocC, Loc, tv]; grind

theorem tv_congr {t : Tree} (h : ∀ a, a ∈ t.inorder → f' a = f a) : tv f' t = tv f t := by
  cases t with
  | nil => rfl
  | node l a c r => simp only [tv]; rw [h a (by simp [Tree.inorder])]

theorem Loc.congr : ∀ {t : Tree}, Loc E f t → (∀ a, a ∈ t.inorder → f' a = f a) → Loc E f' t
  | .nil, _, _ => trivial
  | .node l a c r, ⟨h1, h2, h3⟩, h => by
    have hl : ∀ b, b ∈ l.inorder → f' b = f b := fun b hb => h b (by simp [Tree.inorder, hb])
    have hr : ∀ b, b ∈ r.inorder → f' b = f b := fun b hb => h b (by simp [Tree.inorder, hb])
    exact ⟨by rw [tv_congr hl, tv_congr hr, h a (by simp [Tree.inorder]), ← h1], h2.congr hl, h3.congr hr⟩

theorem LocC.congr : ∀ {k : Ctx} {v : Option α}, LocC E f k v → (∀ a, a ∈ pre k ∨ a ∈ post k → f' a = f a) → LocC E f' k v
  | [], _, _, _ => trivial
  | ⟨true, a, c, s⟩ :: k, v, ⟨h1, h2, h3⟩, h => by
    have hs : ∀ b, b ∈ s.inorder → f' b = f b := fun b hb => h b (by simp [post, hb])
    have ha := h a (by simp [post])
    exact ⟨by rw [tv_congr hs, ha, ← h1], h2.congr hs, by rw [ha]; exact h3.congr (fun b hb => h b (by simp only [pre, post, List.mem_append, List.mem_cons]; grind))⟩
  | ⟨false, a, c, s⟩ :: k, v, ⟨h1, h2, h3⟩, h => by
    have hs : ∀ b, b ∈ s.inorder → f' b = f b := fun b hb => h b (by simp [pre, hb])
    have ha := h a (by simp [pre])
    exact ⟨by rw [tv_congr hs, ha, ← h1], h2.congr hs, by rw [ha]; exact h3.congr (fun b hb => h b (by simp only [pre, post, List.mem_append, List.mem_cons]; grind))⟩

theorem tv_recolor (c : Bool) (t : Tree) : tv f (t.recolor c) = tv f t := by cases t <;> rfl
theorem loc_recolor (c : Bool) (t : Tree) : Loc E f (t.recolor c) ↔ Loc E f t := by cases t <;> exact Iff.rfl
theorem tv_recolorOpt (c : Option Bool) (t : Tree) : tv f (t.recolorOpt c) = tv f t := by cases c <;> simp [Tree.recolorOpt, tv_recolor]
theorem loc_recolorOpt (c : Option Bool) (t : Tree) : Loc E f (t.recolorOpt c) ↔ Loc E f t := by cases c <;> simp [Tree.recolorOpt, loc_recolor]

theorem kid_eq (h : Heap α) {t : Tree} (h0 : (0 : Addr) ∉ t.inorder) : kid h t.top = tv h.aug t := by
  cases t with
  | nil => rfl
  | node l a c r =>
    have ha : a ≠ 0 := by rintro rfl; exact h0 (by simp [Tree.inorder])
    show (if a ≠ 0 then some (h.aug a) else none) = some (h.aug a)
    simp [ha]

/-! ### `propagate` -/

/-- The first node above the hole, `q` if there is none. -/
def upq (q : Addr) : Ctx → Addr
  | [] => q
  | f :: _ => f.a

theorem upq_zero (k : Ctx) : upq 0 k = up k := by cases k <;> rfl

/-- The links along the path from the hole up to `q`. -/
def Links (h : Heap α) (q : Addr) : Ctx → Addr → Prop
  | [], _ => True
  | ⟨true, a, _, s⟩ :: k, x => a ≠ q ∧ h.par a = upq q k ∧ h.left a = x ∧ h.right a = s.top ∧ Links h q k a
  | ⟨false, a, _, s⟩ :: k, x => a ≠ q ∧ h.par a = upq q k ∧ h.left a = s.top ∧ h.right a = x ∧ Links h q k a

theorem Links.aug {h h' : Heap α} (e1 : h'.par = h.par) (e2 : h'.left = h.left) (e3 : h'.right = h.right) {q : Addr} : ∀ {k : Ctx} {x : Addr}, Links h q k x → Links h' q k x
  | [], _, _ => trivial
  | ⟨true, _, _, _⟩ :: _, _, ⟨a1, a2, a3, a4, a5⟩ => ⟨a1, by rw [e1]; exact a2, by rw [e2]; exact a3, by rw [e3]; exact a4, a5.aug e1 e2 e3⟩
  | ⟨false, _, _, _⟩ :: _, _, ⟨a1, a2, a3, a4, a5⟩ => ⟨a1, by rw [e1]; exact a2, by rw [e2]; exact a3, by rw [e3]; exact a4, a5.aug e1 e2 e3⟩

theorem links_zero {h : Heap α} : ∀ {k : Ctx} {x : Addr}, RepC h k x → Links h 0 k x
  | [], _, _ => trivial
  | ⟨true, _, _, _⟩ :: _, _, ⟨a1, a2, a3, a4, _, _, a7⟩ => ⟨a1, by rw [upq_zero]; exact a2, a3, a4, links_zero a7⟩
  | ⟨false, _, _, _⟩ :: _, _, ⟨a1, a2, a3, a4, _, _, a7⟩ => ⟨a1, by rw [upq_zero]; exact a2, a3, a4, links_zero a7⟩

/-- The rule of all nodes around the hole but the first one. -/
def LocC1 (E : Comb α) (f : Addr → α) : Ctx → Prop
  | [] => True
  | ⟨_, a, _, s⟩ :: k => Loc E f s ∧ LocC E f k (some (f a))

theorem LocC.rest {k : Ctx} {v : Option α} (h : LocC E f k v) : LocC1 E f k := by
  cases k with
  | nil => trivial
  | cons g k =>
    obtain ⟨d, a, c, s⟩ := g
    cases d <;> exact h.2

theorem upd_ne {β : Type} {g : Addr → β} {a b : Addr} {v : β} (h : b ≠ a) : upd g a v b = g b := by simp [upd, h]
theorem upd_eq {β : Type} {g : Addr → β} {a : Addr} {v : β} : upd g a v a = v := by simp [upd]

/-- Propagation repairs the summaries above a changed subtree; stopping at the first node that does not change is right. -/
theorem propagate_fix : ∀ (k : Ctx) (fuel : Nat) (h : Heap α) (q : Addr) (t : Tree), Links h q k t.top → LocC1 E h.aug k →
    (t.inorder ++ (pre k ++ post k)).Nodup → (0 : Addr) ∉ t.inorder ++ (pre k ++ post k) → k.length < fuel →
    LocC E (propagate E fuel h (upq q k) q) k (tv (propagate E fuel h (upq q k) q) t) ∧
    ∀ a, a ∉ pre k → a ∉ post k → propagate E fuel h (upq q k) q a = h.aug a
  | _, 0, _, _, _, _, _, _, _, hf => absurd hf (Nat.not_lt_zero _)
  | [], fuel + 1, h, q, t, _, _, _, _, _ => by
    have e : propagate E (fuel + 1) h (upq q []) q = h.aug := by rw [propagate]; exact if_pos rfl
    rw [e]; exact ⟨trivial, fun _ _ _ => rfl⟩
  | ⟨true, a, c, s⟩ :: k, fuel + 1, h, q, t, hl, hc, hnd, h0, hf => by
    obtain ⟨l1, l2, l3, l4, l5⟩ := hl
    obtain ⟨c1, c2⟩ := hc
    have hcm : compute E h a = E a (tv h.aug t) (tv h.aug s) := by
      rw [compute, l3, l4, kid_eq h, kid_eq h]
      · intro hm; exact h0 (by simp [post, hm])
      · intro hm; exact h0 (by simp [hm])
    simp only [pre, post] at hnd h0 ⊢
    rw [show upq q (⟨true, a, c, s⟩ :: k) = a from rfl, propagate, if_neg l1]
    by_cases he : h.aug a = compute E h a
    · rw [if_pos he]
      exact ⟨⟨he.trans hcm, c1, c2⟩, fun _ _ _ => rfl⟩
    · rw [if_neg he, l2]
      simp only [List.nodup_append, List.nodup_cons, List.mem_append, List.mem_cons, List.cons_append] at hnd h0
      have hak : a ∉ pre k ∧ a ∉ post k := by grind
      obtain ⟨r1, r2⟩ := propagate_fix k fuel { h with aug := upd h.aug a (compute E h a) } q (.node t a c s) (Links.aug (h := h) (h' := { h with aug := upd h.aug a (compute E h a) }) rfl rfl rfl l5)
        ((c2.congr (f' := upd h.aug a (compute E h a)) (fun b hb => upd_ne (by rintro rfl; grind))).rest)
        (by simp only [Tree.inorder, List.nodup_append, List.nodup_cons, List.mem_append, List.mem_cons]; grind)
        (by simp only [Tree.inorder, List.mem_append, List.mem_cons]; grind) (by simp only [List.length_cons] at hf; omega)
      generalize propagate E fuel { h with aug := upd h.aug a (compute E h a) } (upq q k) q = f' at r1 r2
      have hfa : f' a = compute E h a := by rw [r2 a hak.1 hak.2]; exact upd_eq
      have hs : ∀ b, b ∈ s.inorder → f' b = h.aug b := fun b hb => by
        rw [r2 b (by grind) (by grind)]; exact upd_ne (by rintro rfl; grind)
      have ht : ∀ b, b ∈ t.inorder → f' b = h.aug b := fun b hb => by
        rw [r2 b (by grind) (by grind)]; exact upd_ne (by rintro rfl; grind)
      refine ⟨⟨?_, c1.congr hs, r1⟩, fun b hb1 hb2 => ?_⟩
      · rw [hfa, hcm, tv_congr hs, tv_congr ht]
      · simp only [List.cons_append, List.mem_append, List.mem_cons] at hb2
        rw [r2 b hb1 (by grind)]; exact upd_ne (by grind)
  | ⟨false, a, c, s⟩ :: k, fuel + 1, h, q, t, hl, hc, hnd, h0, hf => by
    obtain ⟨l1, l2, l3, l4, l5⟩ := hl
    obtain ⟨c1, c2⟩ := hc
    have hcm : compute E h a = E a (tv h.aug s) (tv h.aug t) := by
      rw [compute, l3, l4, kid_eq h, kid_eq h]
      · intro hm; exact h0 (by simp [hm])
      · intro hm; exact h0 (by simp [pre, hm])
    simp only [pre, post] at hnd h0 ⊢
    rw [show upq q (⟨false, a, c, s⟩ :: k) = a from rfl, propagate, if_neg l1]
    by_cases he : h.aug a = compute E h a
    · rw [if_pos he]
      exact ⟨⟨he.trans hcm, c1, c2⟩, fun _ _ _ => rfl⟩
    · rw [if_neg he, l2]
      simp only [List.nodup_append, List.nodup_cons, List.mem_append, List.mem_cons, List.cons_append] at hnd h0
      have hak : a ∉ pre k ∧ a ∉ post k := by grind
      obtain ⟨r1, r2⟩ := propagate_fix k fuel { h with aug := upd h.aug a (compute E h a) } q (.node s a c t) (Links.aug (h := h) (h' := { h with aug := upd h.aug a (compute E h a) }) rfl rfl rfl l5)
        ((c2.congr (f' := upd h.aug a (compute E h a)) (fun b hb => upd_ne (by rintro rfl; grind))).rest)
        (by simp only [Tree.inorder, List.nodup_append, List.nodup_cons, List.mem_append, List.mem_cons]; grind)
        (by simp only [Tree.inorder, List.mem_append, List.mem_cons]; grind) (by simp only [List.length_cons] at hf; omega)
      generalize propagate E fuel { h with aug := upd h.aug a (compute E h a) } (upq q k) q = f' at r1 r2
      have hfa : f' a = compute E h a := by rw [r2 a hak.1 hak.2]; exact upd_eq
      have hs : ∀ b, b ∈ s.inorder → f' b = h.aug b := fun b hb => by
        rw [r2 b (by grind) (by grind)]; exact upd_ne (by rintro rfl; grind)
      have ht : ∀ b, b ∈ t.inorder → f' b = h.aug b := fun b hb => by
        rw [r2 b (by grind) (by grind)]; exact upd_ne (by rintro rfl; grind)
      refine ⟨⟨?_, c1.congr hs, r1⟩, fun b hb1 hb2 => ?_⟩
      · rw [hfa, hcm, tv_congr hs, tv_congr ht]
      · simp only [List.append_assoc, List.mem_append, List.mem_singleton] at hb1
        rw [r2 b (by grind) hb2]; exact upd_ne (by grind)

/-! ### `rotate` -/

theorem rotateSet_aug (cb : Cb α) (h : Heap α) (node newn child : Addr) (color ccolor : Option Bool) :
    (rotateSet cb h node newn child color ccolor).aug = cb.rotate { rotateSet cb h node newn child color ccolor with aug := h.aug } node newn := by
  unfold rotateSet Cb.doRotate
  dsimp only
  congr 1
  generalize hg : childChange _ _ _ _ = g
  have : g.aug = h.aug := by
    rw [← hg, cc_aug]
    cases color <;> cases ccolor <;> by_cases hc : child ≠ 0 <;> simp [hc, Heap.setPar, Heap.setBlack]
  rw [← this]

theorem leftRotate_aug {cb : Cb α} {h h' : Heap α} {a ch : Addr} {color ccolor : Option Bool} (e : leftRotate cb h a color ccolor = some (h', ch)) :
    h'.aug = cb.rotate { h' with aug := h.aug } a (h.right a) := by
  unfold leftRotate at e
  by_cases h0 : h.right a = 0
  · simp [h0] at e
  · simp only [h0, if_false, Option.some.injEq, Prod.mk.injEq] at e
    rw [← e.1]
    exact rotateSet_aug ..

theorem rightRotate_aug {cb : Cb α} {h h' : Heap α} {a ch : Addr} {color ccolor : Option Bool} (e : rightRotate cb h a color ccolor = some (h', ch)) :
    h'.aug = cb.rotate { h' with aug := h.aug } a (h.left a) := by
  unfold rightRotate at e
  by_cases h0 : h.left a = 0
  · simp [h0] at e
  · simp only [h0, if_false, Option.some.injEq, Prod.mk.injEq] at e
    rw [← e.1]
    exact rotateSet_aug ..

/-- The heap holds a tree of the given nodes in which every summary is right. -/
def Good (E : Comb α) (h : Heap α) (L : List Addr) : Prop := ∃ t, Holds h t ∧ t.inorder = L ∧ Loc E h.aug t

theorem rotate_right_loc [Lawful E] {h h' : Heap α} {k : Ctx} {A B C B' : Tree} {p g ch : Addr} {cp cg cp' cg' : Bool} {color ccolor : Option Bool}
    (hat : At h k (.node (.node A p cp B) g cg C)) (e : rightRotate (callbacks E fuel) h g color ccolor = some (h', ch))
    (hat' : At h' k (.node A p cp' (.node B' g cg' C))) (hB : B' = B.recolorOpt ccolor) (hl : Loc E h.aug (plug k (.node (.node A p cp B) g cg C))) :
    Loc E h'.aug (plug k (.node A p cp' (.node B' g cg' C))) := by
  subst hB
  rw [loc_plug] at hl ⊢
  obtain ⟨hlc, e1, ⟨e2, lA, lB⟩, lC⟩ := hl
  have haug := rightRotate_aug e
  rw [show h.left g = p from hat.2.1.2.2.1] at haug
  have hg0 : g ≠ 0 := hat.2.1.1
  have hBr : h'.left g = (B.recolorOpt ccolor).top ∧ h'.right g = C.top := ⟨hat'.2.1.2.2.2.2.2.2.2.2.1, hat'.2.1.2.2.2.2.2.2.2.2.2.1⟩
  have hnd := hat.2.2
  have h0 : ∀ a, a ∈ pre k ++ (Tree.node (.node A p cp B) g cg C).inorder ++ post k → a ≠ 0 := fun a ha => by
    rw [← inorder_plug] at ha
    exact (at_iff.1 hat).2.1.ne_zero a ha
  simp only [Tree.inorder, List.nodup_append, List.nodup_cons, List.mem_append, List.mem_cons] at hnd h0
  let f1 := upd h.aug p (h.aug g)
  have hcm : compute E { h' with aug := f1 } g = E g (tv f1 B) (tv f1 C) := by
    rw [compute]
    show E g (kid _ (h'.left g)) (kid _ (h'.right g)) = _
    rw [hBr.1, hBr.2, kid_eq _, kid_eq _]
    · show E g (tv f1 (B.recolorOpt ccolor)) (tv f1 C) = _
      rw [tv_recolorOpt]
    · exact fun hm => h0 0 (by simp [hm]) rfl
    · rw [recolorOpt_inorder]; exact fun hm => h0 0 (by simp [hm]) rfl
  have hf : h'.aug = upd f1 g (E g (tv f1 B) (tv f1 C)) := by
    rw [haug, ← hcm]; rfl
  have hA : ∀ b, b ∈ A.inorder → h'.aug b = h.aug b := fun b hb => by
    rw [hf, upd_ne (by grind)]; exact upd_ne (by grind)
  have hB1 : ∀ b, b ∈ B.inorder → f1 b = h.aug b := fun b hb => upd_ne (by grind)
  have hC1 : ∀ b, b ∈ C.inorder → f1 b = h.aug b := fun b hb => upd_ne (by grind)
  have hB : ∀ b, b ∈ B.inorder → h'.aug b = h.aug b := fun b hb => by
    rw [hf, upd_ne (by grind)]; exact hB1 b hb
  have hC : ∀ b, b ∈ C.inorder → h'.aug b = h.aug b := fun b hb => by
    rw [hf, upd_ne (by grind)]; exact hC1 b hb
  have hp : h'.aug p = h.aug g := by rw [hf, upd_ne (by grind)]; exact upd_eq
  have hg : h'.aug g = E g (tv h.aug B) (tv h.aug C) := by rw [hf, upd_eq, tv_congr hB1, tv_congr hC1]
  refine ⟨?_, ⟨?_, lA.congr hA, ⟨?_, ?_, lC.congr hC⟩⟩⟩
  · rw [tv, hp]
    refine LocC.congr hlc (fun b hb => ?_)
    rw [hf, upd_ne (by grind)]; exact upd_ne (by grind)
  · rw [hp, e1, tv, tv, hg, e2, tv_congr hA]
    exact Lawful.rot (E := E) ..
  · rw [hg, tv_recolorOpt, tv_congr hB, tv_congr hC]
  · rw [loc_recolorOpt]; exact lB.congr hB

theorem rotate_left_loc [Lawful E] {h h' : Heap α} {k : Ctx} {A B C B' : Tree} {p g ch : Addr} {cp cg cp' cg' : Bool} {color ccolor : Option Bool}
    (hat : At h k (.node A g cg (.node B p cp C))) (e : leftRotate (callbacks E fuel) h g color ccolor = some (h', ch))
    (hat' : At h' k (.node (.node A g cg' B') p cp' C)) (hB : B' = B.recolorOpt ccolor) (hl : Loc E h.aug (plug k (.node A g cg (.node B p cp C)))) :
    Loc E h'.aug (plug k (.node (.node A g cg' B') p cp' C)) := by
  subst hB
  rw [loc_plug] at hl ⊢
  obtain ⟨hlc, e1, lA, ⟨e2, lB, lC⟩⟩ := hl
  have haug := leftRotate_aug e
  rw [show h.right g = p from hat.2.1.2.2.2.1] at haug
  have hg0 : g ≠ 0 := hat.2.1.1
  have hBr : h'.left g = A.top ∧ h'.right g = (B.recolorOpt ccolor).top := ⟨hat'.2.1.2.2.2.2.2.1.2.2.1, hat'.2.1.2.2.2.2.2.1.2.2.2.1⟩
  have hnd := hat.2.2
  have h0 : ∀ a, a ∈ pre k ++ (Tree.node A g cg (.node B p cp C)).inorder ++ post k → a ≠ 0 := fun a ha => by
    rw [← inorder_plug] at ha
    exact (at_iff.1 hat).2.1.ne_zero a ha
  simp only [Tree.inorder, List.nodup_append, List.nodup_cons, List.mem_append, List.mem_cons] at hnd h0
  let f1 := upd h.aug p (h.aug g)
  have hcm : compute E { h' with aug := f1 } g = E g (tv f1 A) (tv f1 B) := by
    rw [compute]
    show E g (kid _ (h'.left g)) (kid _ (h'.right g)) = _
    rw [hBr.1, hBr.2, kid_eq _, kid_eq _]
    · show E g (tv f1 A) (tv f1 (B.recolorOpt ccolor)) = _
      rw [tv_recolorOpt]
    · rw [recolorOpt_inorder]; exact fun hm => h0 0 (by simp [hm]) rfl
    · exact fun hm => h0 0 (by simp [hm]) rfl
  have hf : h'.aug = upd f1 g (E g (tv f1 A) (tv f1 B)) := by
    rw [haug, ← hcm]; rfl
  have hC : ∀ b, b ∈ C.inorder → h'.aug b = h.aug b := fun b hb => by
    rw [hf, upd_ne (by grind)]; exact upd_ne (by grind)
  have hB1 : ∀ b, b ∈ B.inorder → f1 b = h.aug b := fun b hb => upd_ne (by grind)
  have hA1 : ∀ b, b ∈ A.inorder → f1 b = h.aug b := fun b hb => upd_ne (by grind)
  have hB : ∀ b, b ∈ B.inorder → h'.aug b = h.aug b := fun b hb => by
    rw [hf, upd_ne (by grind)]; exact hB1 b hb
  have hA : ∀ b, b ∈ A.inorder → h'.aug b = h.aug b := fun b hb => by
    rw [hf, upd_ne (by grind)]; exact hA1 b hb
  have hp : h'.aug p = h.aug g := by rw [hf, upd_ne (by grind)]; exact upd_eq
  have hg : h'.aug g = E g (tv h.aug A) (tv h.aug B) := by rw [hf, upd_eq, tv_congr hB1, tv_congr hA1]
  refine ⟨?_, ⟨?_, ⟨?_, lA.congr hA, ?_⟩, lC.congr hC⟩⟩
  · rw [tv, hp]
    refine LocC.congr hlc (fun b hb => ?_)
    rw [hf, upd_ne (by grind)]; exact upd_ne (by grind)
  · rw [hp, e1, tv, tv, hg, e2, tv_congr hC]
    exact (Lawful.rot (E := E) ..).symm
  · rw [hg, tv_recolorOpt, tv_congr hB, tv_congr hA]
  · rw [loc_recolorOpt]; exact lB.congr hB

end Bfdev.Augment

import Verif.Segtree.Delete
/-!
Property C29: what insertion into an interval tree does to the kept maxima. The node is linked and the tree rebalanced while the kept value of
the new node is not set yet; it is set afterwards, to the node's own end. The proof compares the run with one in which the value was set before.
-/
set_option linter.unusedSimpArgs false
namespace Bfdev.Segtree
open Rbtree

variable {E : Ends} {fuel : Nat}

/-! ### The walk down -/

theorem rv_raise_left (R L : Option Int) (a m : Int) : rv (some (rv R (rv L a))) m = rv R (rv (some (rv L m)) a) := by
  cases R <;> cases L <;> simp only [rv] <;> grind
theorem rv_raise_right (R L : Option Int) (a m : Int) : rv (some (rv R (rv L a))) m = rv (some (rv R m)) (rv L a) := by
  cases R <;> cases L <;> simp only [rv] <;> grind

theorem walk_at {x : Addr} : ∀ (n : Nat) (k : Ctx) (t : Tree) (h : Heap Int), At h k t → LocC E h.aug k (some (rv (tv h.aug t) (E.hi x))) → Loc E h.aug t → t.height < n →
    (∀ a, a ∈ pre k → E.lo a ≤ E.lo x) → (∀ a, a ∈ post k → E.lo x < E.lo a) → Sorted E t.inorder →
    ∃ f K, walk E x n h (linkOf k) (up k) (pre k).isEmpty = some ({ h with aug := f }, linkOf K, up K, (pre K).isEmpty) ∧ plug K .nil = plug k t ∧
      LocC E f K (some (E.hi x)) ∧ (∀ a, a ∈ pre K → E.lo a ≤ E.lo x) ∧ (∀ a, a ∈ post K → E.lo x < E.lo a)
  | 0, _, _, _, _, _, _, hf, _, _, _ => absurd hf (Nat.not_lt_zero _)
  | n + 1, k, .nil, h, hat, hc, _, _, h1, h2, _ => by
    refine ⟨h.aug, k, ?_, rfl, hc, h1, h2⟩
    rw [walk]
    dsimp only
    rw [linkOf_get hat.1, if_pos (show Tree.nil.top = 0 from rfl)]
  | n + 1, k, .node l a c r, h, hat, hc, ⟨e1, hl, hr⟩, hf, h1, h2, hs => by
    have hat0 := hat
    obtain ⟨hk, ⟨x1, x2, x3, x4, x5, x6, x7⟩, hnd⟩ := hat
    have hft : (Tree.node l a c r).height = max l.height r.height + 1 := rfl
    have hget : (linkOf k).get h = a := linkOf_get hk
    simp only [Tree.inorder, List.nodup_append, List.nodup_cons, List.mem_append, List.mem_cons] at hnd
    have hsl : Sorted E l.inorder := (List.pairwise_append.1 hs).1
    have hsr : Sorted E r.inorder := (List.pairwise_cons.1 (List.pairwise_append.1 hs).2.1).2
    have hla : ∀ b, b ∈ l.inorder → E.lo b ≤ E.lo a := fun b hb => (List.pairwise_append.1 hs).2.2 b hb a (by simp)
    have har : ∀ b, b ∈ r.inorder → E.lo a ≤ E.lo b := fun b hb => (List.pairwise_cons.1 (List.pairwise_append.1 hs).2.1).1 b hb
    obtain ⟨f1, g1, g2, g3⟩ : ∃ f1, (if h.aug a < E.hi x then { h with aug := upd h.aug a (E.hi x) } else h) = { h with aug := f1 } ∧ f1 a = rv (some (h.aug a)) (E.hi x) ∧ ∀ b, b ≠ a → f1 b = h.aug b := by
      by_cases hlt : h.aug a < E.hi x
      · exact ⟨_, if_pos hlt, by rw [upd_eq]; simp only [rv]; rw [if_neg (by omega)], fun b hb => upd_ne hb⟩
      · refine ⟨h.aug, if_neg hlt, ?_, fun _ _ => rfl⟩
        simp only [rv]; split <;> omega
    have hk1 : LocC E f1 k (some (f1 a)) := by
      rw [g2]
      exact LocC.congr hc (fun b hb => g3 b (by rintro rfl; grind))
    have hl1 : Loc E f1 l := hl.congr (fun b hb => g3 b (by rintro rfl; grind))
    have hr1 : Loc E f1 r := hr.congr (fun b hb => g3 b (by rintro rfl; grind))
    have tl : tv f1 l = tv h.aug l := tv_congr (fun b hb => g3 b (by rintro rfl; grind))
    have tr : tv f1 r = tv h.aug r := tv_congr (fun b hb => g3 b (by rintro rfl; grind))
    rw [walk]
    dsimp only
    rw [hget, if_neg x1, g1]
    by_cases hlo : E.lo x < E.lo a
    · rw [if_pos hlo]
      obtain ⟨f, K, q1, q2, q3, q4, q5⟩ := walk_at n (⟨true, a, c, r⟩ :: k) l { h with aug := f1 } (at_aug f1 (at_down_left.1 hat0))
        ⟨by show f1 a = _; rw [g2, e1, tl, tr]; exact rv_raise_left .., hr1, hk1⟩ hl1 (by omega) h1
        (fun b hb => by
          simp only [post, List.cons_append, List.mem_append, List.mem_cons] at hb
          rcases hb with rfl | hb | hb
          · exact hlo
          · have := har b hb; omega
          · exact h2 b hb) hsl
      exact ⟨f, K, q1, q2, q3, q4, q5⟩
    · rw [if_neg hlo]
      obtain ⟨f, K, q1, q2, q3, q4, q5⟩ := walk_at n (⟨false, a, c, l⟩ :: k) r { h with aug := f1 } (at_aug f1 (at_down_right.1 hat0))
        ⟨by show f1 a = _; rw [g2, e1, tl, tr]; exact rv_raise_right .., hl1, hk1⟩ hr1 (by omega)
        (fun b hb => by
          simp only [pre, List.append_assoc, List.mem_append, List.mem_singleton] at hb
          rcases hb with hb | hb | rfl
          · exact h1 b hb
          · have := hla b hb; omega
          · omega) h2 hsr
      refine ⟨f, K, ?_, q2, q3, q4, q5⟩
      rw [← q1]
      have : (pre (⟨false, a, c, l⟩ :: k)).isEmpty = false := by simp [pre]
      rw [this]; rfl

/-! ### Rotations that do not look at the new node -/

theorem cc_with (h : Heap Int) (f : Addr → Int) (p o n : Addr) : childChange { h with aug := f } p o n = { childChange h p o n with aug := f } := by
  unfold childChange
  by_cases h0 : p = 0
  · rw [if_pos h0, if_pos h0]; rfl
  · rw [if_neg h0, if_neg h0]
    dsimp only
    by_cases h1 : h.left p = o
    · rw [if_pos h1, if_pos h1]; rfl
    · rw [if_neg h1, if_neg h1]; rfl

theorem dummy_with (par left right : Addr → Addr) (black : Addr → Bool) (aug f : Addr → Int) (root p o n a b : Addr) :
    Cb.doRotate Cb.dummy (childChange ⟨par, left, right, black, f, root⟩ p o n) a b = { Cb.doRotate Cb.dummy (childChange ⟨par, left, right, black, aug, root⟩ p o n) a b with aug := f } := by
  have := cc_with ⟨par, left, right, black, aug, root⟩ f p o n
  dsimp only at this
  rw [this]; rfl

/-- What `rotate_set` does to the links and colours before the callback. -/
def rotLinks (h : Heap Int) (node newn child : Addr) (color ccolor : Option Bool) : Heap Int := rotateSet Cb.dummy h node newn child color ccolor

theorem rotateSet_eq' (cb : Cb Int) (h : Heap Int) (node newn child : Addr) (color ccolor : Option Bool) :
    rotateSet cb h node newn child color ccolor = cb.doRotate (rotLinks h node newn child color ccolor) node newn := rfl

theorem rotLinks_with (h : Heap Int) (f : Addr → Int) (node newn child : Addr) (color ccolor : Option Bool) :
    rotLinks { h with aug := f } node newn child color ccolor = { rotLinks h node newn child color ccolor with aug := f } := by
  unfold rotLinks rotateSet
  cases color <;> cases ccolor <;> by_cases hc : child ≠ 0 <;> simp only [hc, if_true, if_false, Heap.setPar, Heap.setBlack, ne_eq, not_false_eq_true, not_true_eq_false] <;> exact dummy_with _ _ _ _ _ f _ _ _ _ _ _

theorem rotLinks_aug (h : Heap Int) (node newn child : Addr) (color ccolor : Option Bool) : (rotLinks h node newn child color ccolor).aug = h.aug := by
  have := congrArg Heap.aug (rotLinks_with h h.aug node newn child color ccolor)
  exact this

theorem rotLinks_left (h : Heap Int) (node newn child : Addr) (color ccolor : Option Bool) (b : Addr) :
    (rotLinks h node newn child color ccolor).left b = if h.par node ≠ 0 ∧ b = h.par node ∧ h.left (h.par node) = node then newn else h.left b := by
  unfold rotLinks rotateSet
  cases color <;> cases ccolor <;> by_cases hc : child ≠ 0 <;> simp only [hc, if_true, if_false, Cb.doRotate, Cb.dummy, Heap.setPar, Heap.setBlack, ne_eq, not_false_eq_true, not_true_eq_false] <;> exact cc_left ..

theorem rotLinks_right (h : Heap Int) (node newn child : Addr) (color ccolor : Option Bool) (b : Addr) :
    (rotLinks h node newn child color ccolor).right b = if h.par node ≠ 0 ∧ b = h.par node ∧ h.left (h.par node) ≠ node then newn else h.right b := by
  unfold rotLinks rotateSet
  cases color <;> cases ccolor <;> by_cases hc : child ≠ 0 <;> simp only [hc, if_true, if_false, Cb.doRotate, Cb.dummy, Heap.setPar, Heap.setBlack, ne_eq, not_false_eq_true, not_true_eq_false] <;> exact cc_right ..

theorem rotLinks_par (h : Heap Int) (node newn child : Addr) (color ccolor : Option Bool) {b : Addr} (h1 : b ≠ node) (h2 : b ≠ newn) (h3 : b ≠ child) :
    (rotLinks h node newn child color ccolor).par b = h.par b := by
  unfold rotLinks rotateSet
  cases color <;> cases ccolor <;> by_cases hc : child ≠ 0 <;>
    simp only [hc, if_true, if_false, Cb.doRotate, Cb.dummy, Heap.setPar, Heap.setBlack, ne_eq, not_false_eq_true, not_true_eq_false, cc_par] <;> simp [upd, h1, h2, h3]

/-- The callback does not read what the new node keeps, if the node that moves down is not the new one and does not get it as a child. -/
theorem rotate_sim {x : Addr} (g : Heap Int) (f : Addr → Int) (hf : ∀ b, b ≠ x → f b = g.aug b) {a s : Addr} (ha : a ≠ x) (hl : g.left a ≠ x) (hr : g.right a ≠ x) :
    ∀ b, b ≠ x → rotate E { g with aug := f } a s b = rotate E g a s b := by
  intro b hb
  have hu : ∀ y, y ≠ x → upd f s (f a) y = upd g.aug s (g.aug a) y := by
    intro y hy
    simp only [upd]
    split
    · exact hf a ha
    · exact hf y hy
  have hc : computeMax E { g with aug := upd f s (f a) } a = computeMax E { g with aug := upd g.aug s (g.aug a) } a := by
    simp only [computeMax, raise, hu _ hl, hu _ hr]
  show upd (upd f s (f a)) a (computeMax E { g with aug := upd f s (f a) } a) b = upd (upd g.aug s (g.aug a)) a (computeMax E { g with aug := upd g.aug s (g.aug a) } a) b
  rw [hc]
  simp only [upd] at hu ⊢
  split
  · rfl
  · exact hu b hb

theorem leftRotate_sim {x : Addr} {h h' : Heap Int} {a ch : Addr} {color ccolor : Option Bool} (f : Addr → Int) (hf : ∀ b, b ≠ x → f b = h.aug b)
    (e : leftRotate (callbacks E fuel) h a color ccolor = some (h', ch)) (ha : a ≠ x) (hl : h.left a ≠ x) (hr : h.left (h.right a) ≠ x) (h1 : h.right a ≠ a) (h2 : h.par a ≠ a) :
    (∃ f', leftRotate (callbacks E fuel) { h with aug := f } a color ccolor = some ({ h' with aug := f' }, ch) ∧ ∀ b, b ≠ x → f' b = h'.aug b) ∧
    (∀ b, h'.left b = if h.par a ≠ 0 ∧ b = h.par a ∧ (if h.par a = h.right a then a else h.left (h.par a)) = a then h.right a else if b = h.right a then a else h.left b) ∧
    (∀ b, h'.right b = if h.par a ≠ 0 ∧ b = h.par a ∧ (if h.par a = h.right a then a else h.left (h.par a)) ≠ a then h.right a else if b = a then h.left (h.right a) else h.right b) ∧
    (∀ b, b ≠ a → b ≠ h.right a → b ≠ h.left (h.right a) → h'.par b = h.par b) := by
  unfold Rbtree.leftRotate at e ⊢
  by_cases h0 : h.right a = 0
  · simp [h0] at e
  · simp only [h0, if_false, Option.some.injEq, Prod.mk.injEq] at e ⊢
    obtain ⟨rfl, rfl⟩ := e
    have hL := rotLinks_left ((h.setRight a (h.left (h.right a))).setLeft (h.right a) a) a (h.right a) (h.left (h.right a)) color ccolor
    have hR := rotLinks_right ((h.setRight a (h.left (h.right a))).setLeft (h.right a) a) a (h.right a) (h.left (h.right a)) color ccolor
    refine ⟨⟨rotate E { rotLinks ((h.setRight a (h.left (h.right a))).setLeft (h.right a) a) a (h.right a) (h.left (h.right a)) color ccolor with aug := f } a (h.right a), ⟨?_, rfl⟩, ?_⟩, fun b => (hL b).trans rfl, fun b => (hR b).trans rfl, fun b q1 q2 q3 => (rotLinks_par _ _ _ _ _ _ q1 q2 q3).trans rfl⟩
    · have := rotLinks_with ((h.setRight a (h.left (h.right a))).setLeft (h.right a) a) f a (h.right a) (h.left (h.right a)) color ccolor
      show Cb.doRotate _ (rotLinks { ((h.setRight a (h.left (h.right a))).setLeft (h.right a) a) with aug := f } _ _ _ _ _) _ _ = _
      rw [this]; rfl
    · refine rotate_sim (E := E) (rotLinks ((h.setRight a (h.left (h.right a))).setLeft (h.right a) a) a (h.right a) (h.left (h.right a)) color ccolor) f ?_ ha ?_ ?_
      · rw [rotLinks_aug]; exact hf
      · rw [hL a, if_neg (fun hc => h2 hc.2.1.symm)]
        show upd _ _ _ _ ≠ _
        rw [upd_ne h1.symm]; exact hl
      · rw [hR a, if_neg (fun hc => h2 hc.2.1.symm)]
        show upd _ _ _ _ ≠ _
        rw [upd_eq]; exact hr

theorem rightRotate_sim {x : Addr} {h h' : Heap Int} {a ch : Addr} {color ccolor : Option Bool} (f : Addr → Int) (hf : ∀ b, b ≠ x → f b = h.aug b)
    (e : rightRotate (callbacks E fuel) h a color ccolor = some (h', ch)) (ha : a ≠ x) (hl : h.right a ≠ x) (hr : h.right (h.left a) ≠ x) (h1 : h.left a ≠ a) (h2 : h.par a ≠ a) :
    (∃ f', rightRotate (callbacks E fuel) { h with aug := f } a color ccolor = some ({ h' with aug := f' }, ch) ∧ ∀ b, b ≠ x → f' b = h'.aug b) ∧
    (∀ b, h'.left b = if h.par a ≠ 0 ∧ b = h.par a ∧ (if h.par a = a then h.right (h.left a) else h.left (h.par a)) = a then h.left a else if b = a then h.right (h.left a) else h.left b) ∧
    (∀ b, h'.right b = if h.par a ≠ 0 ∧ b = h.par a ∧ (if h.par a = a then h.right (h.left a) else h.left (h.par a)) ≠ a then h.left a else if b = h.left a then a else h.right b) ∧
    (∀ b, b ≠ a → b ≠ h.left a → b ≠ h.right (h.left a) → h'.par b = h.par b) := by
  unfold Rbtree.rightRotate at e ⊢
  by_cases h0 : h.left a = 0
  · simp [h0] at e
  · simp only [h0, if_false, Option.some.injEq, Prod.mk.injEq] at e ⊢
    obtain ⟨rfl, rfl⟩ := e
    have hL := rotLinks_left ((h.setLeft a (h.right (h.left a))).setRight (h.left a) a) a (h.left a) (h.right (h.left a)) color ccolor
    have hR := rotLinks_right ((h.setLeft a (h.right (h.left a))).setRight (h.left a) a) a (h.left a) (h.right (h.left a)) color ccolor
    refine ⟨⟨rotate E { rotLinks ((h.setLeft a (h.right (h.left a))).setRight (h.left a) a) a (h.left a) (h.right (h.left a)) color ccolor with aug := f } a (h.left a), ⟨?_, rfl⟩, ?_⟩, fun b => (hL b).trans rfl, fun b => (hR b).trans rfl, fun b q1 q2 q3 => (rotLinks_par _ _ _ _ _ _ q1 q2 q3).trans rfl⟩
    · have := rotLinks_with ((h.setLeft a (h.right (h.left a))).setRight (h.left a) a) f a (h.left a) (h.right (h.left a)) color ccolor
      show Cb.doRotate _ (rotLinks { ((h.setLeft a (h.right (h.left a))).setRight (h.left a) a) with aug := f } _ _ _ _ _) _ _ = _
      rw [this]; rfl
    · refine rotate_sim (E := E) (rotLinks ((h.setLeft a (h.right (h.left a))).setRight (h.left a) a) a (h.left a) (h.right (h.left a)) color ccolor) f ?_ ha ?_ ?_
      · rw [rotLinks_aug]; exact hf
      · rw [hL a, if_neg (fun hc => h2 hc.2.1.symm)]
        show upd _ _ _ _ ≠ _
        rw [upd_eq]; exact hr
      · rw [hR a, if_neg (fun hc => h2 hc.2.1.symm)]
        show upd _ _ _ _ ≠ _
        rw [upd_ne h1.symm]; exact hl

end Bfdev.Segtree

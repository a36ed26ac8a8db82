import Verif.Rbtree.Delete
/-!
Taking a node out of the tree, `bfdev_rb_remove`, and putting one node in the place of another, `bfdev_rb_replace`.
-/
set_option linter.unusedSimpArgs false
namespace Bfdev.Rbtree
variable {α : Type}

theorem Holds.frame {h h' : Heap α} {t : Tree} (hh : Holds h t) (ha : ∀ a, a ∈ t.inorder → Agree h h' a) (hr : h'.root = h.root) : Holds h' t :=
  ⟨hr.trans hh.1, hh.2.1.frame ha, hh.2.2⟩

theorem plug_append : ∀ (P k : Ctx) (t : Tree), plug (P ++ k) t = plug k (plug P t)
  | [], _, _ => rfl
  | ⟨true, a, c, s⟩ :: P, k, t => plug_append P k _
  | ⟨false, a, c, s⟩ :: P, k, t => plug_append P k _

/-- The child `t` takes the place of its parent `x`, with colour `c`. -/
def splice (h : Heap α) (x t : Addr) (c : Bool) : Heap α :=
  if t = 0 then childChange h (h.par x) x t else ((childChange h (h.par x) x t).setPar t (h.par x)).setBlack t c

theorem splice_at {h : Heap α} {k : Ctx} {l r t : Tree} {x : Addr} {c : Bool} (c' : Bool) (hat : At h k (.node l x c r))
    (ht : (l = .nil ∧ r = t) ∨ (r = .nil ∧ l = t)) :
    At (splice h x t.top c') k (t.recolor c') ∧ Others h (splice h x t.top c') (plug k (.node l x c r)).inorder := by
  obtain ⟨hk, ⟨h1, h2, h3, h4, h5, h6, h7⟩, hnd⟩ := hat
  have hrt : Rep h x t := by rcases ht with ⟨_, rfl⟩ | ⟨_, rfl⟩ <;> assumption
  have hin : (Tree.node l x c r).inorder = l.inorder ++ x :: r.inorder := rfl
  have hnd' : (pre k ++ t.inorder ++ post k).Nodup ∧ x ∉ pre k ∧ x ∉ post k ∧ x ∉ t.inorder := by
    rcases ht with ⟨rfl, rfl⟩ | ⟨rfl, rfl⟩ <;> simp only [Tree.inorder, List.nodup_append, List.nodup_cons, List.mem_append, List.mem_cons, List.append_nil, List.nil_append] at hnd ⊢ <;> grind
  obtain ⟨n1, n2, n3, n4⟩ := hnd'
  have hcc : ∀ a, a ≠ up k → Agree h (childChange h (up k) x t.top) a := fun a ha => childChange_agree h (Or.inr ha)
  have hkt : ∀ a, a ∈ t.inorder → a ∉ pre k ∧ a ∉ post k := by
    intro a ha
    simp only [List.nodup_append, List.mem_append] at n1
    grind
  have hupk : ∀ a, a ∈ t.inorder → a ≠ up k ∨ up k = 0 := by
    intro a ha
    cases k with
    | nil => exact Or.inr rfl
    | cons f k =>
      left
      rintro rfl
      have := hkt _ ha
      have := up_mem (f := f) (k := k)
      grind
  have hRC : RepC (childChange h (up k) x t.top) k t.top :=
    childChange_repC hk h1 ⟨n2, n3⟩ (by simp only [List.nodup_append, List.mem_append] at n1 ⊢; grind)
  have hagree : ∀ a, a ≠ t.top ∨ t.top = 0 → Agree (childChange h (up k) x t.top) (splice h x t.top c') a := by
    intro a ha
    unfold splice
    rw [h2]
    split
    · exact Agree.refl _ _
    · have : a ≠ t.top := by grind
      simp [Agree, Heap.setPar, Heap.setBlack, upd, this]
  refine ⟨⟨?_, ?_, by simpa using n1⟩, ?_⟩
  · rw [recolor_top]
    refine hRC.frame (fun a ha => hagree a ?_) ?_
    · by_cases hz : t.top = 0
      · exact Or.inr hz
      · left
        rintro rfl
        have := hkt _ (top_mem hz)
        grind
    · unfold splice
      rw [h2]
      split <;> rfl
  · refine hrt.retop (by simp only [List.nodup_append, List.mem_append] at n1; grind) (fun a ha hne => ?_) (fun hne => ?_)
    · refine Agree.trans ?_ (hagree a (Or.inl hne))
      rcases hupk a ha with h' | h'
      · exact hcc a h'
      · exact childChange_agree h (Or.inl h')
    · have hA : Agree h (childChange h (up k) x t.top) t.top := by
        rcases hupk _ (top_mem hne) with h' | h'
        · exact hcc _ h'
        · exact childChange_agree h (Or.inl h')
      unfold splice
      rw [if_neg hne, h2]
      exact ⟨by simp [Heap.setPar, Heap.setBlack, upd], by simpa [Heap.setPar, Heap.setBlack, upd] using hA.2.1,
        by simpa [Heap.setPar, Heap.setBlack, upd] using hA.2.2.1, by simp [Heap.setPar, Heap.setBlack, upd]⟩
  · intro a ha
    rw [inorder_plug] at ha
    have hat : a ∉ t.inorder := by rcases ht with ⟨_, rfl⟩ | ⟨_, rfl⟩ <;> simp [hin] at ha <;> grind
    refine Agree.trans ?_ (hagree a ?_)
    · refine childChange_agree h ?_
      cases k with
      | nil => exact Or.inl rfl
      | cons f k =>
        right
        rintro rfl
        have := up_mem (f := f) (k := k)
        simp at ha; grind
    · by_cases hz : t.top = 0
      · exact Or.inr hz
      · left
        rintro rfl
        exact hat (top_mem hz)

theorem replace_at {h : Heap α} {k : Ctx} {l r : Tree} {x y : Addr} {c : Bool} (hat : At h k (.node l x c r)) (hy : y ≠ 0)
    (hyL : y ∉ (plug k (.node l x c r)).inorder) :
    At (replace h x y) k (.node l y c r) ∧ Others h (replace h x y) (y :: (plug k (.node l x c r)).inorder) := by
  obtain ⟨hk, ⟨h1, h2, h3, h4, h5, h6, h7⟩, hnd⟩ := hat
  rw [inorder_plug] at hyL ⊢
  have hnd0 := hnd
  simp only [Tree.inorder, List.nodup_append, List.nodup_cons, List.mem_append, List.mem_cons] at hnd hyL
  have hxy : x ≠ y := by grind
  have tl : l.top ≠ 0 → l.top ∈ l.inorder := top_mem
  have tr : r.top ≠ 0 → r.top ∈ r.inorder := top_mem
  have hupk : up k = 0 ∨ (up k ∈ pre k ∨ up k ∈ post k) := by
    cases k with
    | nil => exact Or.inl rfl
    | cons f k => exact Or.inr up_mem
  have hlx : l.top ≠ x := fun e => by
    by_cases hz : l.top = 0
    · exact h1 (e.symm.trans hz)
    · have := tl hz; grind
  have hrx : r.top ≠ x := fun e => by
    by_cases hz : r.top = 0
    · exact h1 (e.symm.trans hz)
    · have := tr hz; grind
  -- the heap before the parent's link is changed
  let H : Heap α := { h with
    par := fun a => if a = r.top ∧ r.top ≠ 0 then y else if a = l.top ∧ l.top ≠ 0 then y else if a = y then up k else h.par a
    left := upd h.left y l.top, right := upd h.right y r.top, black := upd h.black y c }
  have hH : replace h x y = childChange H (up k) x y := by
    unfold replace
    simp only [h2, h3, h4, h5, Heap.setPar, Heap.setLeft, Heap.setRight, Heap.setBlack, upd, if_neg hxy]
    have : ∀ (a b : Heap α), a = b → childChange a (up k) x y = childChange b (up k) x y := by rintro a _ rfl; rfl
    refine this _ _ ?_
    by_cases hl : l.top = 0 <;> by_cases hr : r.top = 0 <;> simp [hl, hr, hxy, h3, h4, H, upd, Heap.mk.injEq] <;> funext b <;> simp [upd]
    all_goals grind
  have hagree : ∀ a, a ≠ y → a ≠ l.top → a ≠ r.top → Agree h H a := by
    intro a ha h1 h2
    simp [Agree, H, upd, ha, h1, h2]
  have hRC : RepC H k x := by
    refine hk.frame (fun a ha => hagree a (by grind) (fun e => ?_) (fun e => ?_)) rfl
    · have : a ≠ 0 := hk.ne_zero a ha
      have := tl (e ▸ this); grind
    · have : a ≠ 0 := hk.ne_zero a ha
      have := tr (e ▸ this); grind
  have hcc : ∀ a, a ≠ up k ∨ up k = 0 → Agree H (childChange H (up k) x y) a := fun a ha => childChange_agree H ha.symm
  have hcc' : ∀ a, a ∈ l.inorder ∨ a = y ∨ a ∈ r.inorder → Agree H (childChange H (up k) x y) a := by
    intro a ha
    refine hcc a ?_
    rcases hupk with e | e
    · exact Or.inr e
    · left; grind
  have hly : l.top ≠ y := fun e => by
    by_cases hz : l.top = 0
    · exact hy (e.symm.trans hz)
    · have := tl hz; grind
  have hry : r.top ≠ y := fun e => by
    by_cases hz : r.top = 0
    · exact hy (e.symm.trans hz)
    · have := tr hz; grind
  rw [hH]
  refine ⟨⟨?_, ?_, ?_⟩, ?_⟩
  · refine childChange_repC hRC h1 ⟨by grind, by grind⟩ ?_
    rw [List.nodup_append]; grind
  · obtain ⟨q1, q2, q3, q4⟩ := hcc' y (Or.inr (Or.inl rfl))
    refine ⟨hy, ?_, ?_, ?_, ?_, ?_, ?_⟩
    · rw [q1]; simp [H, hly.symm, hry.symm]
    · rw [q2]; simp [H, upd]
    · rw [q3]; simp [H, upd]
    · rw [q4]; simp [H, upd]
    · have e : l = l.recolor (h.black l.top) := by
        cases l with
        | nil => rfl
        | node => simp only [Tree.recolor, Tree.top, h6.2.2.2.2.1]
      rw [e]
      refine h6.retop (by grind) (fun a ha hne => (hagree a (by grind) hne (fun e => ?_)).trans (hcc' a (Or.inl ha))) (fun hne => ?_)
      · have : a ≠ 0 := h6.ne_zero a ha
        have := tr (e ▸ this); grind
      · obtain ⟨q1, q2, q3, q4⟩ := hcc' l.top (Or.inl (tl hne))
        have hlr : ¬ (l.top = r.top ∧ r.top ≠ 0) := fun e => by have := tr e.2; have := tl hne; grind
        refine ⟨by rw [q1]; simp [H, hlr, hne], by rw [q2]; simp [H, upd, hly], by rw [q3]; simp [H, upd, hly], by rw [q4]; simp [H, upd, hly]⟩
    · have e : r = r.recolor (h.black r.top) := by
        cases r with
        | nil => rfl
        | node => simp only [Tree.recolor, Tree.top, h7.2.2.2.2.1]
      rw [e]
      refine h7.retop (by grind) (fun a ha hne => (hagree a (by grind) (fun e => ?_) hne).trans (hcc' a (Or.inr (Or.inr ha)))) (fun hne => ?_)
      · have : a ≠ 0 := h7.ne_zero a ha
        have := tl (e ▸ this); grind
      · obtain ⟨q1, q2, q3, q4⟩ := hcc' r.top (Or.inr (Or.inr (tr hne)))
        refine ⟨by rw [q1]; simp [H, hne], by rw [q2]; simp [H, upd, hry], by rw [q3]; simp [H, upd, hry], by rw [q4]; simp [H, upd, hry]⟩
  · simp only [Tree.inorder, List.nodup_append, List.nodup_cons, List.mem_append, List.mem_cons]; grind
  · intro a ha
    simp only [Tree.inorder, List.mem_append, List.mem_cons] at ha
    by_cases hz : a = 0
    · subst hz
      refine (?_ : Agree h H 0).trans (hcc 0 ?_)
      · simp only [Agree, H, upd, if_neg hy.symm, and_self, and_true]
        rw [if_neg (fun e => e.2 e.1.symm), if_neg (fun e => e.2 e.1.symm)]
      · rcases hupk with e | e
        · exact Or.inr e
        · left; exact (hk.ne_zero _ e).symm
    · refine (hagree a (by grind) (fun e => ?_) (fun e => ?_)).trans (hcc a ?_)
      · have := tl (e ▸ hz); grind
      · have := tr (e ▸ hz); grind
      · rcases hupk with e | e
        · exact Or.inr e
        · left; grind

/-- The way down to the leftmost node, as `bfdev_rb_remove` walks it. -/
theorem minPath {h : Heap α} : ∀ (l : Tree) (b : Addr), Rep h b l → l ≠ .nil → ∃ (P : Ctx) (s : Addr) (cs : Bool) (R : Tree),
    (∀ f, f ∈ P → f.isLeft = true) ∧ l = plug P (.node .nil s cs R) ∧ P.length < l.height ∧
    ∀ fuel, l.height ≤ fuel → succLoop h fuel b l.top = some (s, if P = [] then b else up P)
  | .nil, _, _, hl => absurd rfl hl
  | .node .nil a c r, b, hr, _ => by
    refine ⟨[], a, c, r, by simp, rfl, by simp [Tree.height], ?_⟩
    intro fuel hf
    obtain ⟨f, rfl⟩ : ∃ f, fuel = f + 1 := ⟨fuel - 1, by simp [Tree.height] at hf; omega⟩
    simp [succLoop, Tree.top, hr.2.2.1]
  | .node (.node l2 a2 c2 r2) a c r, b, hr, _ => by
    obtain ⟨P, s, cs, R, h1, h2, h3, h4⟩ := minPath (.node l2 a2 c2 r2) a hr.2.2.2.2.2.1 (by simp)
    refine ⟨P ++ [⟨true, a, c, r⟩], s, cs, R, ?_, ?_, ?_, ?_⟩
    · intro f hf
      simp only [List.mem_append, List.mem_singleton] at hf
      rcases hf with hf | rfl
      · exact h1 f hf
      · rfl
    · rw [plug_append, ← h2]; rfl
    · simp only [List.length_append, List.length_singleton]
      rw [Tree.height]; omega
    · intro fuel hf
      rw [Tree.height] at hf
      obtain ⟨f, rfl⟩ : ∃ f, fuel = f + 1 := ⟨fuel - 1, by omega⟩
      have := h4 f (by omega)
      rw [succLoop]
      simp only [Tree.top, hr.2.2.1, hr.2.2.2.2.2.1.1, ne_eq, not_false_eq_true, if_true] at this ⊢
      rw [this]
      cases P with
      | nil => simp [up]
      | cons f P => simp [up]

theorem cc_par (h : Heap α) (p o n : Addr) : (childChange h p o n).par = h.par := (childChange_par h p o n).1
theorem cc_black (h : Heap α) (p o n : Addr) : (childChange h p o n).black = h.black := (childChange_par h p o n).2
theorem cc_root (h : Heap α) (p o n : Addr) : (childChange h p o n).root = if p = 0 then n else h.root := by
  unfold childChange; split
  · rfl
  · split <;> rfl
theorem cc_left (h : Heap α) (p o n a : Addr) : (childChange h p o n).left a = if p ≠ 0 ∧ a = p ∧ h.left p = o then n else h.left a := by
  unfold childChange; split
  · rename_i hp; simp [Heap.setRoot, hp]
  · rename_i hp; split
    · rename_i hl; simp [Heap.setLeft, upd, hp, hl]
    · rename_i hl; simp [Heap.setRight, hl]
theorem cc_right (h : Heap α) (p o n a : Addr) : (childChange h p o n).right a = if p ≠ 0 ∧ a = p ∧ h.left p ≠ o then n else h.right a := by
  unfold childChange; split
  · rename_i hp; simp [Heap.setRoot, hp]
  · rename_i hp; split
    · rename_i hl; simp [Heap.setLeft, hl]
    · rename_i hl; simp [Heap.setRight, upd, hp, hl]

theorem splice_fields (h : Heap α) (x t : Addr) (c : Bool) :
    (∀ a, (splice h x t c).par a = if t ≠ 0 ∧ a = t then h.par x else h.par a) ∧ (∀ a, (splice h x t c).black a = if t ≠ 0 ∧ a = t then c else h.black a) ∧
    (splice h x t c).left = (childChange h (h.par x) x t).left ∧ (splice h x t c).right = (childChange h (h.par x) x t).right ∧
    (splice h x t c).root = (childChange h (h.par x) x t).root := by
  unfold splice
  split
  · rename_i ht; simp [ht, cc_par, cc_black]
  · rename_i ht; simp [ht, cc_par, cc_black, Heap.setPar, Heap.setBlack, upd]

/-- The fields after `bfdev_rb_replace`, before the parent's link is changed. -/
theorem replace_fields (h : Heap α) (x y : Addr) (hxy : x ≠ y) :
    ∃ H : Heap α, replace h x y = childChange H (h.par x) x y ∧ H.root = h.root ∧
      (∀ a, H.left a = if a = y then h.left x else h.left a) ∧ (∀ a, H.right a = if a = y then h.right x else h.right a) ∧
      (∀ a, H.black a = if a = y then h.black x else h.black a) ∧
      (∀ a, H.par a = if h.right x ≠ 0 ∧ a = h.right x then y else if h.left x ≠ 0 ∧ a = h.left x then y else if a = y then h.par x else h.par a) := by
  unfold replace
  refine ⟨_, rfl, ?_⟩
  simp only [Heap.setPar, Heap.setLeft, Heap.setRight, Heap.setBlack, upd, if_neg hxy]
  by_cases hl : h.left x = 0 <;> by_cases hr : h.right x = 0 <;> simp [hl, hr, hxy, upd]

theorem removeFinish_fields (h : Heap α) (x s parent tmp : Addr) (hxl : x ≠ h.left x) (hxs : x ≠ s) (htx : tmp ≠ x) (hts : tmp ≠ s) :
    ∃ H : Heap α, H.left = (upd h.left s (h.left x)) ∧ H.right = h.right ∧ H.root = h.root ∧
      (removeFinish h x s parent tmp).1.left = (childChange H (h.par x) x s).left ∧ (removeFinish h x s parent tmp).1.right = (childChange H (h.par x) x s).right ∧
      (removeFinish h x s parent tmp).1.root = (childChange H (h.par x) x s).root ∧
      (∀ a, (removeFinish h x s parent tmp).1.par a = if a = s then h.par x else if tmp ≠ 0 ∧ a = tmp then parent else if a = h.left x then s else h.par a) ∧
      (∀ a, (removeFinish h x s parent tmp).1.black a = if a = s then h.black x else if tmp ≠ 0 ∧ a = tmp then true else h.black a) ∧
      (removeFinish h x s parent tmp).2 = if tmp ≠ 0 then 0 else if h.black s = true then parent else 0 := by
  refine ⟨(h.setLeft s (h.left x)).setPar (h.left x) s, rfl, rfl, rfl, ?_⟩
  unfold removeFinish
  by_cases ht : tmp = 0 <;> by_cases hb : h.black s = true <;>
    simp [ht, hb, cc_par, cc_black, cc_root, Heap.setPar, Heap.setLeft, Heap.setBlack, upd, hxl, htx.symm]

theorem removeFinish_agree {h h1 : Heap α} {x s l tmp pp parent q : Addr} (hs : s ≠ 0) (hx : x ≠ 0) (hl : l ≠ 0) (e2 : h.left x = l) (e6 : h.par x = pp) (hq : q ≠ 0)
    (hxs : x ≠ s) (hlx : l ≠ x) (hls : l ≠ s) (htx : tmp ≠ x) (hts : tmp ≠ s) (htl : tmp ≠ l) (hpx : pp ≠ x) (hps : pp ≠ s) (hpl : pp = 0 ∨ pp ≠ l) (hpt : pp = 0 ∨ pp ≠ tmp)
    (h1b : h1.black = h.black) (h1r : h1.root = h.root)
    (hq0 : h.par s = q)
    (hcase : (q = x ∧ parent = s ∧ h.right x = s ∧ h.right s = tmp ∧ h1.par = h.par ∧ h1.left = h.left ∧ h1.right = h.right) ∨
      (q = parent ∧ q ≠ x ∧ q ≠ s ∧ pp ≠ q ∧ h.left q = s ∧ h.right x ≠ s ∧ h.right x ≠ tmp ∧ h.right x ≠ l ∧ h.right x ≠ x ∧ h.right x ≠ 0 ∧
        (∀ a, h1.par a = if a = h.right x then s else h.par a) ∧
        (∀ a, h1.left a = if a = q then tmp else h.left a) ∧ (∀ a, h1.right a = if a = s then h.right x else h.right a))) :
    (∀ a, a ≠ x → Agree (replace (splice h s tmp true) x s) (removeFinish h1 x s parent tmp).1 a) ∧ (removeFinish h1 x s parent tmp).1.root = (replace (splice h s tmp true) x s).root ∧
    (removeFinish h1 x s parent tmp).2 = if tmp ≠ 0 then 0 else if h.black s = true then parent else 0 := by
  obtain ⟨s1, s2, s3, s4, s5⟩ := splice_fields h s tmp true
  obtain ⟨H, r1, r2, r3, r4, r5, r6⟩ := replace_fields (splice h s tmp true) x s hxs
  have h1x : h1.par x = pp ∧ h1.left x = l := by
    rcases hcase with ⟨_, _, _, _, c1, c2, _⟩ | ⟨_, c0, _, _, _, _, _, _, c3, _, c1, c2, _⟩
    · rw [c1, c2]; exact ⟨e6, e2⟩
    · rw [c1, c2, if_neg c0.symm, if_neg c3.symm]; exact ⟨e6, e2⟩
  obtain ⟨K, k1, k2, k3, k4, k5, k6, k7, k8, k9⟩ := removeFinish_fields h1 x s parent tmp (by rw [h1x.2]; exact hlx.symm) hxs htx hts
  have spx : (splice h s tmp true).par x = pp := by rw [s1, if_neg (fun e => htx e.2.symm), e6]
  have cl := cc_left h (h.par s) s tmp
  have cr := cc_right h (h.par s) s tmp
  have cro := cc_root h (h.par s) s tmp
  rw [hq0] at cl cr cro s3 s4 s5
  rw [r1]
  have al := cc_left H pp x s
  have ar := cc_right H pp x s
  have aro := cc_root H pp x s
  have bl := cc_left K pp x s
  have br := cc_right K pp x s
  have bro := cc_root K pp x s
  rw [h1x.1] at k4 k5 k6 k7
  rw [h1x.2] at k1 k7
  rw [spx] at r6 ⊢
  have k1' : ∀ a, K.left a = if a = s then l else h1.left a := fun a => by rw [k1]; rfl
  refine ⟨?_, ?_, ?_⟩
  · intro a ha
    rcases hcase with ⟨c1, c2, c3, c4, c5, c6, c7⟩ | ⟨c1, c2, c3, c4, c5, c6, c7, c8, c9, c10, c11, c12, c13⟩
    · subst c1
      have x1 : (splice h s tmp true).left q = l := by rw [s3, cl]; grind
      have x2 : (splice h s tmp true).right q = tmp := by rw [s4, cr]; grind
      refine ⟨?_, ?_, ?_, ?_⟩
      · rw [cc_par, k7, r6, x1, x2, c5]; grind
      · rw [k4, bl, al, k1', k1', r3, r3, x1, s3, cl, cl, c6]; grind
      · rw [k5, br, ar, k1', k2, r3, r4, x1, x2, s3, s4, cl, cr, c6, c7]; grind
      · rw [cc_black, k8, r5, h1b]; grind
    · have x1 : (splice h s tmp true).left x = l := by rw [s3, cl]; grind
      have x2 : (splice h s tmp true).right x = h.right x := by rw [s4, cr]; grind
      refine ⟨?_, ?_, ?_, ?_⟩
      · rw [cc_par, k7, r6, x1, x2, c11]; grind
      · rw [k4, bl, al, k1', k1', r3, r3, x1, s3, cl, cl, c12, c12]; grind
      · rw [k5, br, ar, k1', k2, r3, r4, x1, x2, s3, s4, cl, cr, c12, c13]; grind
      · rw [cc_black, k8, r5, h1b]; grind
  · rw [k6, bro, aro, k3, r2, h1r, s5, cro]; grind
  · rw [k9, h1b]
theorem cc_setPar (h : Heap α) (p o n a v : Addr) : childChange (h.setPar a v) p o n = (childChange h p o n).setPar a v := by
  unfold childChange; split
  · rfl
  · split <;> (rename_i hl; simp only [Heap.setPar] at hl ⊢; simp [hl]; rfl)
theorem cc_setBlack (h : Heap α) (p o n a : Addr) (v : Bool) : childChange (h.setBlack a v) p o n = (childChange h p o n).setBlack a v := by
  unfold childChange; split
  · rfl
  · split <;> (rename_i hl; simp only [Heap.setBlack] at hl ⊢; simp [hl]; rfl)

/-- Changes of the augmented data do not matter to the links. -/
theorem aug_agree (h : Heap α) (f : Addr → α) (a : Addr) : Agree h { h with aug := f } a := ⟨rfl, rfl, rfl, rfl⟩
theorem at_aug {h : Heap α} {k : Ctx} {t : Tree} (f : Addr → α) (hat : At h k t) : At { h with aug := f } k t :=
  at_iff.2 ((at_iff.1 hat).frame (fun a _ => aug_agree h f a) rfl)

theorem length_height : ∀ (k : Ctx) (t : Tree), k.length + t.height ≤ (plug k t).height
  | [], t => by simp [plug]
  | ⟨true, a, c, s⟩ :: k, t => by
    have := length_height k (.node t a c s)
    simp only [Tree.height, plug, List.length_cons] at this ⊢; omega
  | ⟨false, a, c, s⟩ :: k, t => by
    have := length_height k (.node s a c t)
    simp only [Tree.height, plug, List.length_cons] at this ⊢; omega

/-- The colour rules do not look at addresses. -/
theorem OKC_addr : ∀ (P : Ctx) {k : Ctx} {d : Bool} {x s : Addr} {c : Bool} {l : Tree} {n : Nat}, OKC (P ++ ⟨d, x, c, l⟩ :: k) n → OKC (P ++ ⟨d, s, c, l⟩ :: k) n
  | [], k, d, x, s, true, l, n, h => h
  | [], k, d, x, s, false, l, n, h => h
  | ⟨_, _, true, _⟩ :: P, _, _, _, _, _, _, _, h => ⟨h.1, OKC_addr P h.2⟩
  | ⟨_, _, false, _⟩ :: P, _, _, _, _, _, _, _, h => ⟨h.1, h.2.1, by cases P <;> exact h.2.2.1, OKC_addr P h.2.2.2⟩

theorem rb_zero {t : Tree} (h : RB t 0) : t = .nil ∨ ∃ a, t = .node .nil a false .nil := by
  cases t with
  | nil => exact Or.inl rfl
  | node l a c r =>
    cases c with
    | true => obtain ⟨m, hm, _⟩ := h; omega
    | false =>
      obtain ⟨b1, b2, r1, r2⟩ := h
      right
      have hl : l = .nil := by
        cases l with
        | nil => rfl
        | node _ _ c _ => simp only [Tree.isBlack] at b1; subst b1; obtain ⟨m, hm, _⟩ := r1; omega
      have hr : r = .nil := by
        cases r with
        | nil => rfl
        | node _ _ c _ => simp only [Tree.isBlack] at b2; subst b2; obtain ⟨m, hm, _⟩ := r2; omega
      exact ⟨a, by rw [hl, hr]⟩

/-- The result of taking a node out: a red-black tree, or one where a black node is missing above an empty place. -/
def Removed (h2 : Heap α) (reb : Addr) (L : List Addr) (ht : Nat) : Prop :=
  (reb = 0 ∧ ∃ t2, Holds h2 t2 ∧ t2.inorder = L ∧ RedBlack t2) ∨
  (∃ k2, k2 ≠ [] ∧ reb = up k2 ∧ At h2 k2 .nil ∧ OKC k2 1 ∧ (plug k2 .nil).inorder = L ∧ k2.length ≤ ht)

/-- A node with at most one child is replaced by that child, which becomes black. -/
theorem removed_of {h2 : Heap α} {k : Ctx} {s : Addr} {cs : Bool} {R l : Tree} {n : Nat} {L : List Addr} {H : Nat} (hat : At h2 k (R.recolor true)) (hk : OKC k n) (hb : cs = true ∨ topBlack k = true)
    (hl : l = .nil) (hn : RB (.node l s cs R) n ∨ RB (.node R s cs l) n) (hL : (plug k R).inorder = L) (hH : k.length ≤ H) :
    Removed h2 (if R.top ≠ 0 then 0 else if cs = true then up k else 0) L H := by
  have hL' : (plug k (R.recolor true)).inorder = L := by rw [← hL]; simp [inorder_plug]
  obtain ⟨m, hR, hnm, hc⟩ : ∃ m, RB R m ∧ (if cs = true then n = m + 1 else n = m ∧ R.isBlack = true) ∧ m = 0 := by
    subst hl
    rcases hn with hn | hn
    · cases cs with
      | true => obtain ⟨m, rfl, r1, r2⟩ := hn; exact ⟨m, r2, by simp, r1⟩
      | false => exact ⟨n, hn.2.2.2, by simp [hn.2.1], hn.2.2.1⟩
    · cases cs with
      | true => obtain ⟨m, rfl, r1, r2⟩ := hn; exact ⟨m, r1, by simp, r2⟩
      | false => exact ⟨n, hn.2.2.1, by simp [hn.1], hn.2.2.2⟩
  subst hc
  have hk0 : up k = 0 → k = [] := fun e => by
    have := hat.1.up_ne_zero.1 e; exact this
  rcases rb_zero hR with rfl | ⟨a, rfl⟩
  · simp only [Tree.top, ne_eq, not_true_eq_false, if_false]
    cases cs with
    | true =>
      simp only [if_true] at hnm ⊢
      subst hnm
      by_cases hkn : k = []
      · left
        subst hkn
        exact ⟨rfl, _, at_iff.1 hat, hL', plug_redBlack [] _ 0 trivial rfl (Or.inl rfl)⟩
      · exact Or.inr ⟨k, hkn, rfl, hat, hk, hL, hH⟩
    | false =>
      simp only [Bool.false_eq_true, if_false] at hnm ⊢
      left
      refine ⟨rfl, _, at_iff.1 hat, hL', plug_redBlack k _ n hk ?_ (Or.inl rfl)⟩
      rw [hnm.1]; rfl
  · left
    have hcs : cs = true := by
      cases cs with
      | true => rfl
      | false => simp [Tree.isBlack] at hnm
    subst hcs
    simp only [if_true] at hnm
    subst hnm
    refine ⟨?_, _, at_iff.1 hat, hL', plug_redBlack k _ 1 hk ⟨0, rfl, rfl, rfl⟩ (Or.inl rfl)⟩
    have ha := (at_iff.1 hat).2.1.ne_zero a (by simp [inorder_plug, Tree.inorder, Tree.recolor])
    simp [Tree.top, ha]

theorem Removed.aug {h2 : Heap α} {reb : Addr} {L : List Addr} {n : Nat} (f : Addr → α) (hr : Removed h2 reb L n) : Removed { h2 with aug := f } reb L n := by
  rcases hr with ⟨h1, t, h2, h3⟩ | ⟨k, h1, h2, h3, h4⟩
  · exact Or.inl ⟨h1, t, h2.frame (fun a _ => aug_agree _ f a) rfl, h3⟩
  · exact Or.inr ⟨k, h1, h2, at_aug f h3, h4⟩

theorem Others.aug {h h2 : Heap α} {L : List Addr} (f : Addr → α) (o : Others h h2 L) : Others h { h2 with aug := f } L := fun a ha => o a ha

theorem pre_left : ∀ (P : Ctx), (∀ f, f ∈ P → f.isLeft = true) → pre P = []
  | [], _ => rfl
  | ⟨true, _, _, _⟩ :: P, hP => pre_left P (fun f hf => hP f (List.mem_cons_of_mem _ hf))
  | ⟨false, _, _, _⟩ :: P, hP => absurd (hP _ (List.mem_cons_self ..)) (by simp)

theorem top_left : ∀ (P : Ctx) (t : Tree), P ≠ [] → (∀ f, f ∈ P → f.isLeft = true) → (plug P t).top ∈ post P
  | [], _, h, _ => absurd rfl h
  | ⟨false, _, _, _⟩ :: P, _, _, hP => absurd (hP _ (List.mem_cons_self ..)) (by simp)
  | ⟨true, a, b, u⟩ :: P, t, _, hP => by
    by_cases hPn : P = []
    · subst hPn; simp [plug, post, Tree.top]
    · have := top_left P (.node t a b u) hPn (fun f hf => hP f (List.mem_cons_of_mem _ hf))
      simp only [plug, post, List.cons_append, List.mem_cons, List.mem_append]
      exact Or.inr (Or.inr this)

theorem remove_two {h h1 : Heap α} {k P : Ctx} {l r R : Tree} {x s parent : Addr} {c cs : Bool} (hat : At h k (.node l x c r)) (hrb : RedBlack (plug k (.node l x c r)))
    (hl : l ≠ .nil) (hP : ∀ f, f ∈ P → f.isLeft = true) (hr : r = plug P (.node .nil s cs R))
    (hb : h1.black = h.black) (hroot : h1.root = h.root)
    (hcase : (P = [] ∧ parent = s ∧ h1.par = h.par ∧ h1.left = h.left ∧ h1.right = h.right) ∨
      (P ≠ [] ∧ parent = up P ∧ (∀ a, h1.par a = if a = h.right x then s else h.par a) ∧
        (∀ a, h1.left a = if a = up P then R.top else h.left a) ∧ (∀ a, h1.right a = if a = s then h.right x else h.right a))) :
    Others h (removeFinish h1 x s parent R.top).1 (plug k (.node l x c r)).inorder ∧
    Removed (removeFinish h1 x s parent R.top).1 (removeFinish h1 x s parent R.top).2 (pre k ++ (l.inorder ++ r.inorder) ++ post k) (plug k (.node l x c r)).height ∧
    At (removeFinish h1 x s parent R.top).1 (P ++ ⟨false, s, c, l⟩ :: k) (R.recolor true) := by
  have hat0 := hat
  obtain ⟨hk, ⟨x1, x2, x3, x4, x5, x6, x7⟩, hnd⟩ := hat
  have hat1 : At h (P ++ ⟨false, x, c, l⟩ :: k) (.node .nil s cs R) := by
    rw [at_iff, plug_append, ← hr]; exact at_iff.1 (at_down_right.1 hat0)
  have hrb1 : RedBlack (plug (P ++ ⟨false, x, c, l⟩ :: k) (.node .nil s cs R)) := by rw [plug_append, ← hr]; exact hrb
  obtain ⟨n, hOK, hRB, htop⟩ := redBlack_plug _ _ hrb1
  obtain ⟨hA, ho⟩ := splice_at true hat1 (Or.inl ⟨rfl, rfl⟩)
  rw [plug_append, ← hr] at ho
  obtain ⟨hk1, ⟨s1, s2, s3, s4, s5, s6, s7⟩, hnd1⟩ := hat1
  -- x is now replaced by s
  have hin : r.inorder = pre P ++ s :: R.inorder ++ post P := by rw [hr, inorder_plug]; simp [Tree.inorder]
  have hsL : (plug (⟨false, x, c, l⟩ :: k) (plug P (R.recolor true))).inorder = pre k ++ (l.inorder ++ x :: (pre P ++ R.inorder ++ post P)) ++ post k := by
    simp [inorder_plug, Tree.inorder, pre, post, plug]
  have hpreP := pre_left P hP
  rw [hpreP, List.nil_append] at hin hsL
  have hL0 : (Tree.node l x c r).inorder = l.inorder ++ x :: r.inorder := rfl
  simp only [hL0, hin, List.nodup_append, List.nodup_cons, List.mem_append, List.mem_cons] at hnd
  have hA2 : At (splice h s R.top true) k (.node l x c (plug P (R.recolor true))) := by
    rw [at_iff, plug_append] at hA; exact at_iff.2 hA
  obtain ⟨hA3, ho3⟩ := replace_at hA2 s1 (by
    have : plug k (.node l x c (plug P (R.recolor true))) = plug (⟨false, x, c, l⟩ :: k) (plug P (R.recolor true)) := rfl
    rw [this, hsL]
    simp only [List.mem_append, List.mem_cons]
    grind)
  have hltop : l.top ≠ 0 := fun e => hl (by
    cases l with
    | nil => rfl
    | node _ _ _ _ => exact absurd e x6.1)
  have tl := top_mem hltop
  have tR : R.top ≠ 0 → R.top ∈ R.inorder := top_mem
  have hupk : up k = 0 ∨ (up k ∈ pre k ∨ up k ∈ post k) := by
    cases k with
    | nil => exact Or.inl rfl
    | cons f k => exact Or.inr up_mem
  have hupP : P ≠ [] → up P ∈ post P ∧ h.left (up P) = s ∧ h.par s = up P ∧ r.top ∈ post P := by
    intro hne
    cases P with
    | nil => exact absurd rfl hne
    | cons f P' =>
      have m : up (f :: P') ∈ post (f :: P') := by
        have := up_mem (f := f) (k := P')
        rw [hpreP] at this
        simpa using this
      refine ⟨m, ?_, s2, ?_⟩
      · obtain ⟨d, a, b, t⟩ := f
        have := hP _ (List.mem_cons_self ..)
        simp only at this
        subst this
        exact hk1.2.2.1
      · -- the top of r is a node of the path
        rw [hr]
        exact top_left _ _ (by simp) hP
  have hfin := removeFinish_agree (h := h) (h1 := h1) (x := x) (s := s) (l := l.top) (tmp := R.top) (pp := up k) (parent := parent) (q := h.par s) s1 x1 hltop x3 x2
    (by
      rw [s2]
      cases P with
      | nil => exact x1
      | cons f P => 
        have := (hupP (by simp)).1
        exact x7.ne_zero _ (by rw [hin]; simp only [List.mem_append]; exact Or.inr this))
    (by grind) (by grind) (by grind)
    (fun e => by have := tR (e ▸ x1); grind) (fun e => by have := tR (e ▸ s1); grind) (fun e => by have := tR (e ▸ hltop); grind)
    (fun e => by
      rcases hupk with h | h
      · exact x1 (e ▸ h)
      · grind)
    (fun e => by
      rcases hupk with h | h
      · exact s1 (e ▸ h)
      · grind)
    (by rcases hupk with h | h
        · exact Or.inl h
        · right; grind)
    (by rcases hupk with h | h
        · exact Or.inl h
        · right; intro e
          have := tR (e ▸ hk.ne_zero _ h); grind)
    hb hroot rfl
    (by
      rcases hcase with ⟨rfl, c1, c2, c3, c4⟩ | ⟨c0, c1, c2, c3, c4⟩
      · left
        exact ⟨s2, c1, by rw [x4, hr]; rfl, s4, c2, c3, c4⟩
      · right
        obtain ⟨d1, d2, d3, d4⟩ := hupP c0
        have hz : up P ≠ 0 := x7.ne_zero _ (by rw [hin]; simp only [List.mem_append]; exact Or.inr d1)
        have hz' : r.top ≠ 0 := x7.ne_zero _ (by rw [hin]; simp only [List.mem_append]; exact Or.inr d4)
        rw [d3]
        refine ⟨c1.symm, by grind, by grind, fun e => ?_, d2, by rw [x4]; grind, ?_, by rw [x4]; grind, by rw [x4]; grind, by rw [x4]; exact hz', c2, c3, c4⟩
        · rcases hupk with h | h
          · exact hz (e ▸ h)
          · grind
        · rw [x4]
          intro e
          have := tR (e ▸ hz'); grind)
  obtain ⟨f1, f2, f3⟩ := hfin
  have hH2 : Holds (removeFinish h1 x s parent R.top).1 (plug k (.node l s c (plug P (R.recolor true)))) := by
    refine (at_iff.1 hA3).frame (fun a ha => f1 a ?_) f2
    rintro rfl
    rw [inorder_plug] at ha
    simp only [Tree.inorder, inorder_plug, recolor_inorder, hpreP, List.nil_append, List.mem_append, List.mem_cons] at ha
    grind
  have hA4 : At (removeFinish h1 x s parent R.top).1 (P ++ ⟨false, s, c, l⟩ :: k) (R.recolor true) := by
    rw [at_iff, plug_append]; exact hH2
  refine ⟨?_, ?_, hA4⟩
  · intro a ha
    have hm : a ∉ pre k ∧ a ∉ l.inorder ∧ a ≠ x ∧ a ≠ s ∧ a ∉ R.inorder ∧ a ∉ post P ∧ a ∉ post k := by
      rw [inorder_plug, hL0, hin] at ha
      simp only [List.mem_append, List.mem_cons] at ha
      grind
    refine ((ho a ha).trans (ho3 a ?_)).trans (f1 a hm.2.2.1)
    have : plug k (.node l x c (plug P (R.recolor true))) = plug (⟨false, x, c, l⟩ :: k) (plug P (R.recolor true)) := rfl
    rw [this, hsL]
    simp only [List.mem_append, List.mem_cons]
    grind
  · rw [f3, s5]
    have hup : (if P = [] then s else up P) = up (P ++ ⟨false, s, c, l⟩ :: k) := by
      cases P <;> simp [up]
    have hpar : parent = up (P ++ ⟨false, s, c, l⟩ :: k) := by
      rw [← hup]
      rcases hcase with ⟨rfl, c1, _⟩ | ⟨c0, c1, _⟩
      · simp [c1]
      · simp [c0, c1]
    have hpar' := hpar
    refine cast (congrArg (fun z => Removed _ (if R.top ≠ 0 then 0 else if cs = true then z else 0) _ _) hpar.symm) ?_
    refine removed_of (n := n) hA4 (OKC_addr P hOK) ?_ rfl (Or.inl hRB) ?_ ?_
    · rcases htop with h | h
      · exact Or.inl h
      · right; cases P <;> exact h
    · rw [plug_append, hin]; simp [inorder_plug, Tree.inorder, pre, post, hpreP, plug]
    · have := length_height (P ++ ⟨false, x, c, l⟩ :: k) (.node .nil s cs R)
      rw [plug_append, ← hr] at this
      simp only [List.length_append, List.length_cons] at this ⊢
      have e : plug (⟨false, x, c, l⟩ :: k) r = plug k (.node l x c r) := rfl
      rw [e] at this
      omega

theorem top_nil : Tree.nil.top = 0 := rfl
theorem top_node (l r : Tree) (a : Addr) (c : Bool) : (Tree.node l a c r).top = a := rfl

theorem cc_aug (h : Heap α) (p o n : Addr) : (childChange h p o n).aug = h.aug := by
  unfold childChange; split
  · rfl
  · split <;> rfl
theorem splice_aug (h : Heap α) (x t : Addr) (c : Bool) : (splice h x t c).aug = h.aug := by
  unfold splice
  simp only [apply_ite Heap.aug, Heap.setPar, Heap.setBlack, cc_aug, ite_self]
theorem removeFinish_aug (h : Heap α) (x s parent tmp : Addr) : (removeFinish h x s parent tmp).1.aug = h.aug := by
  unfold removeFinish
  dsimp only
  by_cases ht : tmp ≠ 0
  · rw [if_pos ht]; simp only [Heap.setPar, Heap.setBlack, Heap.setLeft, cc_aug]
  · rw [if_neg ht]
    generalize hg : childChange _ _ _ _ = g
    have : g.aug = h.aug := by rw [← hg, cc_aug]; rfl
    by_cases hb : g.black s = true
    · rw [if_pos hb]; exact this
    · rw [if_neg hb]; exact this

/-- How the tree stands after a node was taken out, and what the callbacks were called with: the node had at most one child; or its
successor was its right child; or its successor was further down. -/
def Shape (cb : Cb α) (h h2 : Heap α) (k : Ctx) (l r : Tree) (x : Addr) (c : Bool) : Prop :=
  (∃ (u : Tree) (g : Heap α), ((l = .nil ∧ u = r) ∨ (r = .nil ∧ u = l)) ∧ At g k (u.recolor true) ∧ g.aug = h.aug ∧ h2 = cb.doPropagate g (up k) 0) ∨
  (∃ (s : Addr) (cs : Bool) (R : Tree) (g : Heap α), r = .node .nil s cs R ∧ At g (⟨false, s, c, l⟩ :: k) (R.recolor true) ∧ g.aug = cb.copy h x s ∧ h2 = cb.doPropagate g s 0) ∨
  (∃ (P : Ctx) (s : Addr) (cs : Bool) (R : Tree) (g1 g : Heap α), P ≠ [] ∧ (∀ f, f ∈ P → f.isLeft = true) ∧ r = plug P (.node .nil s cs R) ∧
    At g (P ++ ⟨false, s, c, l⟩ :: k) (R.recolor true) ∧
    (∀ a, g1.par a = if a = h.right x then s else h.par a) ∧ (∀ a, g1.left a = if a = up P then R.top else h.left a) ∧
    (∀ a, g1.right a = if a = s then h.right x else h.right a) ∧ g1.aug = h.aug ∧
    g.aug = cb.propagate { g1 with aug := cb.copy g1 x s } (up P) s ∧ h2 = cb.doPropagate g s 0)

theorem remove_shape (cb : Cb α) {h : Heap α} {k : Ctx} {l r : Tree} {x : Addr} {c : Bool} {fuel : Nat} (hat : At h k (.node l x c r)) (hrb : RedBlack (plug k (.node l x c r)))
    (hf : (plug k (.node l x c r)).height ≤ fuel) :
    ∃ h2 reb, remove cb fuel h x = some (h2, reb) ∧ Others h h2 (plug k (.node l x c r)).inorder ∧
      Removed h2 reb (pre k ++ (l.inorder ++ r.inorder) ++ post k) (plug k (.node l x c r)).height ∧ Shape cb h h2 k l r x c := by
  have hat0 := hat
  obtain ⟨hk, ⟨x1, x2, x3, x4, x5, x6, x7⟩, hnd⟩ := hat
  obtain ⟨n, hOK, hRB, htop⟩ := redBlack_plug k _ hrb
  have hlen := length_height k (.node l x c r)
  have hht : (Tree.node l x c r).height = max l.height r.height + 1 := rfl
  have hnz : ∀ {t : Tree}, Rep h x t → t ≠ .nil → t.top ≠ 0 := by
    intro t ht hn e
    cases t with
    | nil => exact hn rfl
    | node _ _ _ _ => exact ht.1 e
  have hone : ∀ {t : Tree}, t ≠ .nil → RB t 0 → t.isBlack = false := by
    intro t ht h0
    rcases rb_zero h0 with rfl | ⟨a, rfl⟩
    · exact absurd rfl ht
    · rfl
  by_cases hl : l = .nil
  · subst hl
    obtain ⟨hA, ho⟩ := splice_at true hat0 (Or.inl ⟨rfl, rfl⟩)
    have hR := removed_of (L := pre k ++ (Tree.nil.inorder ++ r.inorder) ++ post k) (H := (plug k (.node .nil x c r)).height) hA hOK (by simpa [Tree.isBlack] using htop) rfl (Or.inl hRB) (by simp [inorder_plug, Tree.inorder]) (by omega)
    by_cases hr : r = .nil
    · subst hr
      refine ⟨_, _, ?_, ho.aug _, hR.aug (cb.propagate (splice h x (Tree.nil).top true) (up k) 0), Or.inl ⟨_, _, Or.inl ⟨rfl, rfl⟩, hA, splice_aug .., rfl⟩⟩
      unfold remove
      simp only [x3, x4, Tree.top, and_self, if_true, x5, x2, splice, Cb.doPropagate, ne_eq, not_true_eq_false, if_false]
    · have hz := hnz x7 hr
      have hc : c = true := by
        cases c with
        | true => rfl
        | false => 
          obtain ⟨b1, b2, r1, r2⟩ := hRB
          rw [show n = 0 from r1] at r2
          rw [hone hr r2] at b2; simp at b2
      refine ⟨_, _, ?_, ho.aug _, hR.aug (cb.propagate (splice h x r.top true) (up k) 0), Or.inl ⟨_, _, Or.inl ⟨rfl, rfl⟩, hA, splice_aug .., rfl⟩⟩
      unfold remove
      simp only [x3, x4, top_nil, hz, and_false, if_false, if_true, x5, x2, splice, Cb.doPropagate, ne_eq, not_false_eq_true, cc_setPar, cc_setBlack, hc]
      simp only [Heap.setPar, Heap.setBlack, x2]
  · by_cases hr : r = .nil
    · subst hr
      obtain ⟨hA, ho⟩ := splice_at true hat0 (Or.inr ⟨rfl, rfl⟩)
      have hR := removed_of (L := pre k ++ (l.inorder ++ Tree.nil.inorder) ++ post k) (H := (plug k (.node l x c .nil)).height) hA hOK (by simpa [Tree.isBlack] using htop) rfl (Or.inr hRB) (by simp [inorder_plug, Tree.inorder]) (by omega)
      have hz := hnz x6 hl
      have hc : c = true := by
        cases c with
        | true => rfl
        | false => 
          obtain ⟨b1, b2, r1, r2⟩ := hRB
          rw [show n = 0 from r2] at r1
          rw [hone hl r1] at b1; simp at b1
      refine ⟨_, _, ?_, ho.aug _, hR.aug (cb.propagate (splice h x l.top true) (up k) 0), Or.inl ⟨_, _, Or.inr ⟨rfl, rfl⟩, hA, splice_aug .., rfl⟩⟩
      unfold remove
      simp only [x3, x4, top_nil, hz, false_and, if_false, if_true, x5, x2, splice, Cb.doPropagate, ne_eq, not_false_eq_true, cc_setPar, cc_setBlack, hc]
      simp only [Heap.setPar, Heap.setBlack, x2]
    · have hzl := hnz x6 hl
      have hzr := hnz x7 hr
      cases r with
      | nil => exact absurd rfl hr
      | node rl a ca rr =>
        obtain ⟨a1, a2, a3, a4, a5, a6, a7⟩ := x7
        by_cases hrl : rl = .nil
        · subst hrl
          obtain ⟨ho, hR, hA⟩ := remove_two (h1 := cb.doCopy h x a) (P := []) (parent := a) hat0 hrb hl (by simp) rfl rfl rfl (Or.inl ⟨rfl, rfl, rfl, rfl, rfl⟩)
          refine ⟨_, _, ?_, ho.aug _, hR.aug (cb.propagate (removeFinish (cb.doCopy h x a) x a a rr.top).1 a 0),
            Or.inr (Or.inl ⟨a, ca, rr, _, rfl, hA, removeFinish_aug .., rfl⟩)⟩
          unfold remove
          simp only [x3, x4, top_nil, top_node, hzl, false_and, if_false, a1, a3, if_true, a4, Cb.doPropagate]
        · have hzrl : rl.top ≠ 0 := fun e => hrl (by
            cases rl with
            | nil => rfl
            | node _ _ _ _ => exact absurd e a6.1)
          obtain ⟨P, s, cs, R, p1, p2, p3, p4⟩ := minPath rl a a6 hrl
          have p5 := p4 fuel (by simp only [hht, Tree.height] at hlen; omega)
          have hr' : Tree.node rl a ca rr = plug (P ++ [⟨true, a, ca, rr⟩]) (.node .nil s cs R) := by rw [plug_append, ← p2]; rfl
          have hsR : h.right s = R.top := by
            have : At h ((P ++ [⟨true, a, ca, rr⟩]) ++ ⟨false, x, c, l⟩ :: k) (.node .nil s cs R) := by
              rw [at_iff, plug_append, ← hr']; exact at_iff.1 (at_down_right.1 hat0)
            exact this.2.1.2.2.2.1
          have hup : (if P = [] then a else up P) = up (P ++ [⟨true, a, ca, rr⟩]) := by cases P <;> simp [up]
          rw [hup] at p5
          generalize hq : up (P ++ [⟨true, a, ca, rr⟩]) = q at p5
          have hPl : ∀ f, f ∈ P ++ [⟨true, a, ca, rr⟩] → f.isLeft = true := by
            intro f hf
            simp only [List.mem_append, List.mem_singleton] at hf
            rcases hf with hf | rfl
            · exact p1 f hf
            · rfl
          let g1 : Heap α := ((h.setLeft q R.top).setRight s a).setPar a s
          let g2 := cb.doCopy g1 x s
          let g3 := cb.doPropagate g2 q s
          obtain ⟨ho, hR, hA⟩ := remove_two (h1 := g3) (P := P ++ [⟨true, a, ca, rr⟩]) (parent := q) hat0 hrb hl
            hPl hr' rfl rfl
            (Or.inr ⟨by simp, hq.symm, fun b => by rw [x4]; rfl, fun b => by rw [hq]; rfl, fun b => by rw [x4]; rfl⟩)
          refine ⟨_, _, ?_, ho.aug _, hR.aug (cb.propagate (removeFinish g3 x s q R.top).1 s 0),
            Or.inr (Or.inr ⟨P ++ [⟨true, a, ca, rr⟩], s, cs, R, g1, _, by simp, hPl, hr', hA, fun b => by rw [x4]; rfl, fun b => by rw [hq]; rfl, fun b => by rw [x4]; rfl, rfl,
              (removeFinish_aug ..).trans (by rw [hq]; rfl), rfl⟩)⟩
          unfold remove
          simp only [x3, x4, top_nil, top_node, hzl, false_and, if_false, a1, a3, hzrl, p5, hsR, Cb.doPropagate, g3, g2, g1]

theorem remove_at (cb : Cb α) {h : Heap α} {k : Ctx} {l r : Tree} {x : Addr} {c : Bool} {fuel : Nat} (hat : At h k (.node l x c r)) (hrb : RedBlack (plug k (.node l x c r)))
    (hf : (plug k (.node l x c r)).height ≤ fuel) :
    ∃ h2 reb, remove cb fuel h x = some (h2, reb) ∧ Others h h2 (plug k (.node l x c r)).inorder ∧
      Removed h2 reb (pre k ++ (l.inorder ++ r.inorder) ++ post k) (plug k (.node l x c r)).height := by
  obtain ⟨h2, reb, e, ho, hR, _⟩ := remove_shape cb hat hrb hf
  exact ⟨h2, reb, e, ho, hR⟩

end Bfdev.Rbtree

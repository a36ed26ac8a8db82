import Verif.Rbtree.Spec
/-!
Trees in the heap seen from one node: contexts, framing, and the effect of a rotation.
-/
set_option linter.unusedSimpArgs false
namespace Bfdev.Rbtree
variable {α : Type}

theorem Agree.refl (h : Heap α) (a : Addr) : Agree h h a := ⟨rfl, rfl, rfl, rfl⟩
theorem Agree.trans {h h' h'' : Heap α} {a : Addr} (x : Agree h h' a) (y : Agree h' h'' a) : Agree h h'' a :=
  ⟨y.1.trans x.1, y.2.1.trans x.2.1, y.2.2.1.trans x.2.2.1, y.2.2.2.trans x.2.2.2⟩
theorem Others.refl (h : Heap α) (l) : Others h h l := fun a _ => Agree.refl h a
theorem Others.trans {h h' h'' : Heap α} {l} (x : Others h h' l) (y : Others h' h'' l) : Others h h'' l := fun a ha => (x a ha).trans (y a ha)

/-- One step up: is the hole the left child, the node, its colour, the other child. -/
structure Frame where
  isLeft : Bool
  a : Addr
  c : Bool
  sib : Tree

abbrev Ctx := List Frame

/-- The tree with `t` in the hole. -/
def plug : Ctx → Tree → Tree
  | [], t => t
  | ⟨true, a, c, s⟩ :: k, t => plug k (.node t a c s)
  | ⟨false, a, c, s⟩ :: k, t => plug k (.node s a c t)

/-- The parent of the hole. -/
def up : Ctx → Addr
  | [] => 0
  | f :: _ => f.a

def pre : Ctx → List Addr
  | [] => []
  | ⟨true, _, _, _⟩ :: k => pre k
  | ⟨false, a, _, s⟩ :: k => pre k ++ (s.inorder ++ [a])
def post : Ctx → List Addr
  | [] => []
  | ⟨true, a, _, s⟩ :: k => a :: s.inorder ++ post k
  | ⟨false, _, _, _⟩ :: k => post k

theorem inorder_plug : ∀ (k : Ctx) (t : Tree), (plug k t).inorder = pre k ++ t.inorder ++ post k
  | [], t => by simp [plug, pre, post]
  | ⟨true, a, c, s⟩ :: k, t => by rw [plug, inorder_plug k]; simp [Tree.inorder, pre, post]
  | ⟨false, a, c, s⟩ :: k, t => by rw [plug, inorder_plug k]; simp [Tree.inorder, pre, post]

/-- The heap holds the context, with node `x` in the hole. -/
def RepC (h : Heap α) : Ctx → Addr → Prop
  | [], x => h.root = x
  | ⟨true, a, c, s⟩ :: k, x => a ≠ 0 ∧ h.par a = up k ∧ h.left a = x ∧ h.right a = s.top ∧ h.black a = c ∧ Rep h a s ∧ RepC h k a
  | ⟨false, a, c, s⟩ :: k, x => a ≠ 0 ∧ h.par a = up k ∧ h.left a = s.top ∧ h.right a = x ∧ h.black a = c ∧ Rep h a s ∧ RepC h k a

theorem rep_plug (h : Heap α) : ∀ (k : Ctx) (t : Tree), (h.root = (plug k t).top ∧ Rep h 0 (plug k t)) ↔ (RepC h k t.top ∧ Rep h (up k) t)
  | [], t => by simp [plug, RepC, up]
  | ⟨true, a, c, s⟩ :: k, t => by
    rw [plug, rep_plug h k]
    simp only [Rep, RepC, Tree.top, up]
    constructor
    · rintro ⟨h1, h2, h3, h4, h5, h6, h7, h8⟩; exact ⟨⟨h2, h3, h4, h5, h6, h8, h1⟩, h7⟩
    · rintro ⟨⟨h2, h3, h4, h5, h6, h8, h1⟩, h7⟩; exact ⟨h1, h2, h3, h4, h5, h6, h7, h8⟩
  | ⟨false, a, c, s⟩ :: k, t => by
    rw [plug, rep_plug h k]
    simp only [Rep, RepC, Tree.top, up]
    constructor
    · rintro ⟨h1, h2, h3, h4, h5, h6, h7, h8⟩; exact ⟨⟨h2, h3, h4, h5, h6, h7, h1⟩, h8⟩
    · rintro ⟨⟨h2, h3, h4, h5, h6, h7, h1⟩, h8⟩; exact ⟨h1, h2, h3, h4, h5, h6, h7, h8⟩

/-- The state of an algorithm that looks at subtree `t` in context `k`. -/
def At (h : Heap α) (k : Ctx) (t : Tree) : Prop := RepC h k t.top ∧ Rep h (up k) t ∧ (pre k ++ t.inorder ++ post k).Nodup

theorem at_iff {h : Heap α} {k : Ctx} {t : Tree} : At h k t ↔ Holds h (plug k t) := by
  unfold At Holds
  rw [inorder_plug]
  constructor
  · rintro ⟨a, b, c⟩
    obtain ⟨x, y⟩ := (rep_plug h k t).2 ⟨a, b⟩
    exact ⟨x, y, c⟩
  · rintro ⟨x, y, c⟩
    obtain ⟨a, b⟩ := (rep_plug h k t).1 ⟨x, y⟩
    exact ⟨a, b, c⟩

theorem Rep.ne_zero {h : Heap α} : ∀ {t : Tree} {p : Addr}, Rep h p t → ∀ a, a ∈ t.inorder → a ≠ 0
  | .nil, _, _, a, ha => by simp [Tree.inorder] at ha
  | .node l x c r, _, hr, a, ha => by
    simp only [Tree.inorder, List.mem_append, List.mem_cons] at ha
    obtain ⟨h1, _, _, _, _, h6, h7⟩ := hr
    rcases ha with ha | rfl | ha
    · exact Rep.ne_zero h6 a ha
    · exact h1
    · exact Rep.ne_zero h7 a ha

theorem Rep.frame {h h' : Heap α} : ∀ {t : Tree} {p : Addr}, Rep h p t → (∀ a, a ∈ t.inorder → Agree h h' a) → Rep h' p t
  | .nil, _, _, _ => trivial
  | .node l x c r, p, hr, hs => by
    obtain ⟨h1, h2, h3, h4, h5, h6, h7⟩ := hr
    obtain ⟨e1, e2, e3, e4⟩ := hs x (by simp [Tree.inorder])
    refine ⟨h1, e1.trans h2, e2.trans h3, e3.trans h4, e4.trans h5, h6.frame (fun a ha => hs a ?_), h7.frame (fun a ha => hs a ?_)⟩
    · simp [Tree.inorder, ha]
    · simp [Tree.inorder, ha]

/-- The tree with another colour at the top. -/
def Tree.recolor (c : Bool) : Tree → Tree
  | .nil => .nil
  | .node l a _ r => .node l a c r

@[simp] theorem recolor_top (c : Bool) (t : Tree) : (t.recolor c).top = t.top := by cases t <;> rfl
@[simp] theorem recolor_inorder (c : Bool) (t : Tree) : (t.recolor c).inorder = t.inorder := by cases t <;> rfl
theorem recolor_self {t : Tree} (h : t.isBlack = true) : t.recolor true = t := by
  cases t with
  | nil => rfl
  | node l a c r => simp only [Tree.isBlack] at h; subst h; rfl

/-- Changing parent and colour of the top node only. -/
theorem Rep.retop {h h' : Heap α} {t : Tree} {p q : Addr} {c : Bool} (hr : Rep h p t) (hnd : t.inorder.Nodup)
    (h1 : ∀ a, a ∈ t.inorder → a ≠ t.top → Agree h h' a)
    (h2 : t.top ≠ 0 → h'.par t.top = q ∧ h'.left t.top = h.left t.top ∧ h'.right t.top = h.right t.top ∧ h'.black t.top = c) : Rep h' q (t.recolor c) := by
  cases t with
  | nil => trivial
  | node l x c0 r =>
    obtain ⟨z1, z2, z3, z4, z5, z6, z7⟩ := hr
    obtain ⟨e1, e2, e3, e4⟩ := h2 z1
    simp only [Tree.inorder, List.nodup_append, List.nodup_cons, List.mem_cons] at hnd
    simp only [Tree.top] at *
    refine ⟨z1, e1, e2.trans z3, e3.trans z4, e4, z6.frame (fun a ha => h1 a ?_ ?_), z7.frame (fun a ha => h1 a ?_ ?_)⟩
    · simp [Tree.inorder, ha]
    · exact hnd.2.2 a ha x (Or.inl rfl)
    · simp [Tree.inorder, ha]
    · rintro rfl; exact hnd.2.1.1 ha

theorem RepC.frame {h h' : Heap α} : ∀ {k : Ctx} {x : Addr}, RepC h k x → (∀ a, a ∈ pre k ∨ a ∈ post k → Agree h h' a) → h'.root = h.root → RepC h' k x
  | [], x, hr, _, e => by simp only [RepC] at hr ⊢; rw [e]; exact hr
  | ⟨true, a, c, s⟩ :: k, x, hr, hs, e => by
    obtain ⟨h1, h2, h3, h4, h5, h6, h7⟩ := hr
    obtain ⟨e1, e2, e3, e4⟩ := hs a (by simp [post])
    refine ⟨h1, e1.trans h2, e2.trans h3, e3.trans h4, e4.trans h5, h6.frame (fun b hb => hs b ?_), h7.frame (fun b hb => hs b ?_) e⟩
    · simp [post, hb]
    · simp only [pre, post, List.mem_append, List.mem_cons]; rcases hb with hb | hb <;> simp [hb]
  | ⟨false, a, c, s⟩ :: k, x, hr, hs, e => by
    obtain ⟨h1, h2, h3, h4, h5, h6, h7⟩ := hr
    obtain ⟨e1, e2, e3, e4⟩ := hs a (by simp [pre])
    refine ⟨h1, e1.trans h2, e2.trans h3, e3.trans h4, e4.trans h5, h6.frame (fun b hb => hs b ?_), h7.frame (fun b hb => hs b ?_) e⟩
    · simp [pre, hb]
    · simp only [pre, post, List.mem_append, List.mem_cons]; rcases hb with hb | hb <;> simp [hb]

theorem RepC.up_ne_zero {h : Heap α} {k : Ctx} {x : Addr} (hr : RepC h k x) : up k = 0 ↔ k = [] := by
  cases k with
  | nil => simp [up]
  | cons f k =>
    obtain ⟨d, a, c, s⟩ := f
    cases d <;> (simp only [RepC] at hr; simp [up, hr.1])

theorem up_mem {f : Frame} {k : Ctx} : up (f :: k) ∈ pre (f :: k) ∨ up (f :: k) ∈ post (f :: k) := by
  obtain ⟨d, a, c, s⟩ := f
  cases d <;> simp [up, pre, post]

theorem RepC.ne_zero {h : Heap α} : ∀ {k : Ctx} {x : Addr}, RepC h k x → ∀ a, a ∈ pre k ∨ a ∈ post k → a ≠ 0
  | [], x, _, a, ha => by simp [pre, post] at ha
  | ⟨true, b, c, s⟩ :: k, x, hr, a, ha => by
    obtain ⟨h1, _, _, _, _, h6, h7⟩ := hr
    simp only [pre, post, List.mem_append, List.mem_cons] at ha
    rcases ha with ha | (rfl | ha) | ha
    · exact h7.ne_zero a (Or.inl ha)
    · exact h1
    · exact h6.ne_zero a ha
    · exact h7.ne_zero a (Or.inr ha)
  | ⟨false, b, c, s⟩ :: k, x, hr, a, ha => by
    obtain ⟨h1, _, _, _, _, h6, h7⟩ := hr
    simp only [pre, post, List.mem_append, List.mem_cons, List.not_mem_nil, or_false] at ha
    rcases ha with (ha | ha | rfl) | ha
    · exact h7.ne_zero a (Or.inl ha)
    · exact h6.ne_zero a ha
    · exact h1
    · exact h7.ne_zero a (Or.inr ha)

theorem childChange_par (h : Heap α) (p o n : Addr) : (childChange h p o n).par = h.par ∧ (childChange h p o n).black = h.black := by
  unfold childChange Heap.setRoot Heap.setLeft Heap.setRight
  split
  · exact ⟨rfl, rfl⟩
  · split <;> exact ⟨rfl, rfl⟩

theorem childChange_agree (h : Heap α) {p o n a : Addr} (ha : p = 0 ∨ a ≠ p) : Agree h (childChange h p o n) a := by
  refine ⟨by rw [(childChange_par h p o n).1], ?_, ?_, by rw [(childChange_par h p o n).2]⟩ <;>
  · unfold childChange Heap.setRoot Heap.setLeft Heap.setRight upd
    split
    · rfl
    · split
      · simp; try (intro e; exact absurd e (ha.resolve_left (by assumption)))
      · simp; try (intro e; exact absurd e (ha.resolve_left (by assumption)))

/-- Replacing the node in the hole of the context. -/
theorem childChange_repC {h : Heap α} {k : Ctx} {x y : Addr} (hr : RepC h k x) (hx : x ≠ 0) (hxk : x ∉ pre k ∧ x ∉ post k) (hnd : (pre k ++ post k).Nodup) :
    RepC (childChange h (up k) x y) k y := by
  cases k with
  | nil => simp [RepC, childChange, up, Heap.setRoot]
  | cons f k =>
    obtain ⟨d, a, c, s⟩ := f
    cases d with
    | true =>
      obtain ⟨h1, h2, h3, h4, h5, h6, h7⟩ := hr
      have e : childChange h (up (⟨true, a, c, s⟩ :: k)) x y = h.setLeft a y := by
        simp [childChange, up, h1, h3]
      rw [e]
      simp only [pre, post, List.nodup_append, List.nodup_cons, List.mem_append, List.mem_cons] at hnd
      refine ⟨h1, h2, by simp [Heap.setLeft, upd], h4, h5, h6.frame (fun b hb => ?_), h7.frame (fun b hb => ?_) rfl⟩ <;>
      · have : b ≠ a := by grind
        simp [Agree, Heap.setLeft, upd, this]
    | false =>
      obtain ⟨h1, h2, h3, h4, h5, h6, h7⟩ := hr
      simp only [pre, post, List.mem_append, List.mem_cons, List.not_mem_nil, or_false] at hxk
      have hl : h.left a ≠ x := by
        rw [h3]
        intro e
        cases s with
        | nil => exact hx e.symm
        | node sl sa sc sr => simp only [Tree.top] at e; subst e; simp [Tree.inorder] at hxk
      have e : childChange h (up (⟨false, a, c, s⟩ :: k)) x y = h.setRight a y := by
        simp [childChange, up, h1, hl]
      rw [e]
      simp only [pre, post, List.nodup_append, List.nodup_cons, List.mem_append, List.mem_cons, List.not_mem_nil, or_false] at hnd
      refine ⟨h1, h2, h3, by simp [Heap.setRight, upd], h5, h6.frame (fun b hb => ?_), h7.frame (fun b hb => ?_) rfl⟩ <;>
      · have : b ≠ a := by grind
        simp [Agree, Heap.setRight, upd, this]

/-! ### Rotations -/

theorem rotateSet_eq (cb : Cb α) (h : Heap α) {node newn child : Addr} (color ccolor : Option Bool) (h1 : newn ≠ node) (h2 : child ≠ 0 → child ≠ node ∧ child ≠ newn) :
    ∃ h2, rotateSet cb h node newn child color ccolor = cb.doRotate (childChange h2 (h.par node) node newn) node newn ∧
      h2.left = h.left ∧ h2.right = h.right ∧ h2.root = h.root ∧
      h2.par node = newn ∧ h2.par newn = h.par node ∧ (child ≠ 0 → h2.par child = node) ∧
      h2.black node = color.getD (h.black node) ∧ h2.black newn = (if color.isSome then h.black node else h.black newn) ∧
      (child ≠ 0 → h2.black child = ccolor.getD (h.black child)) ∧
      ∀ a, a ≠ node → a ≠ newn → (child ≠ 0 → a ≠ child) → h2.par a = h.par a ∧ h2.black a = h.black a := by
  unfold rotateSet
  refine ⟨_, rfl, ?_⟩
  by_cases hc : child = 0
  · cases color <;> simp [hc, Heap.setPar, Heap.setBlack, upd, h1, h1.symm] <;> grind
  · obtain ⟨h3, h4⟩ := h2 hc
    cases color <;> cases ccolor <;> simp [hc, Heap.setPar, Heap.setBlack, upd, h1, h1.symm, h3, h4, h3.symm, h4.symm] <;> grind

/-- Recolour the top if a colour is given. -/
def Tree.recolorOpt : Option Bool → Tree → Tree
  | none, t => t
  | some c, t => t.recolor c

@[simp] theorem recolorOpt_top (c : Option Bool) (t : Tree) : (t.recolorOpt c).top = t.top := by cases c <;> simp [Tree.recolorOpt]
@[simp] theorem recolorOpt_inorder (c : Option Bool) (t : Tree) : (t.recolorOpt c).inorder = t.inorder := by cases c <;> simp [Tree.recolorOpt]

theorem recolorOpt_eq {h : Heap α} {p : Addr} {t : Tree} (hr : Rep h p t) (c : Option Bool) : t.recolorOpt c = t.recolor (c.getD (h.black t.top)) := by
  cases t with
  | nil => cases c <;> rfl
  | node l a c0 r =>
    cases c with
    | none => simp only [Tree.recolorOpt, Option.getD_none, Tree.top]; rw [hr.2.2.2.2.1]; rfl
    | some c => rfl

theorem top_mem {t : Tree} (h : t.top ≠ 0) : t.top ∈ t.inorder := by
  cases t with
  | nil => exact absurd rfl h
  | node l a c r => simp [Tree.inorder, Tree.top]

theorem rightRotate_at (cb : Cb α) {h : Heap α} {k : Ctx} {A B C : Tree} {p g : Addr} {cp cg : Bool} (color ccolor : Option Bool)
    (hat : At h k (.node (.node A p cp B) g cg C)) :
    ∃ h', rightRotate cb h g color ccolor = some (h', B.top) ∧
      At h' k (.node A p (if color.isSome then cg else cp) (.node (B.recolorOpt ccolor) g (color.getD cg) C)) ∧
      Others h h' (pre k ++ (Tree.node (.node A p cp B) g cg C).inorder ++ post k) := by
  obtain ⟨hk, ⟨hg, hgp, hgl, hgr, hgc, ⟨hp, hpp, hpl, hpr, hpc, hA, hB⟩, hC⟩, hnd⟩ := hat
  simp only [Tree.top] at hk hgl
  have hnd0 := hnd
  simp only [Tree.inorder, List.nodup_append, List.nodup_cons, List.mem_append, List.mem_cons] at hnd
  have hpg : p ≠ g := by grind
  have hbt : B.top ≠ 0 → B.top ∈ B.inorder := top_mem
  have hBg : B.top ≠ 0 → B.top ≠ g ∧ B.top ≠ p := by grind
  unfold rightRotate
  simp only [hgl, if_neg hp, hpr]
  obtain ⟨h2, e, f1, f2, f3, f4, f5, f6, f7, f8, f9, f10⟩ := rotateSet_eq cb ((h.setLeft g B.top).setRight p g) (node := g) (newn := p) (child := B.top) color ccolor hpg hBg
  rw [e]
  simp only [Heap.setLeft, Heap.setRight] at f1 f2 f3 f4 f5 f6 f7 f8 f9 f10
  simp only [Heap.setLeft, Heap.setRight, hgp] at *
  refine ⟨_, rfl, ?_, ?_⟩
  · -- agreement outside the three nodes
    have hup : ∀ a, a ∉ pre k → a ∉ post k → up k = 0 ∨ a ≠ up k := by
      intro a h1 h2
      cases k with
      | nil => left; rfl
      | cons f k =>
        right
        intro e
        rcases up_mem (f := f) (k := k) with h | h <;> (rw [← e] at h; contradiction)
    have hin : ∀ a, a ∈ A.inorder ∨ a ∈ B.inorder ∨ a ∈ C.inorder → a ≠ B.top ∨ B.top = 0 → Agree h (cb.doRotate (childChange h2 (up k) g p) g p) a := by
      intro a ha hat
      have a1 : a ≠ g := by grind
      have a2 : a ≠ p := by grind
      refine Agree.trans (h' := h2) ?_ (childChange_agree h2 (hup a (by grind) (by grind)))
      refine ⟨(f10 a a1 a2 (by grind)).1, by rw [f1]; simp [upd, a1], by rw [f2]; simp [upd, a2], (f10 a a1 a2 (by grind)).2⟩
    have hcc : ∀ a, a ∉ pre k → a ∉ post k → Agree h2 (cb.doRotate (childChange h2 (up k) g p) g p) a := fun a h1 h2' => childChange_agree h2 (hup a h1 h2')
    refine ⟨?_, ?_, by simpa [Tree.inorder] using hnd0⟩
    · simp only [Tree.top]
      refine RepC.frame (h := childChange h2 (up k) g p) ?_ (fun a _ => ⟨rfl, rfl, rfl, rfl⟩) rfl
      refine childChange_repC (RepC.frame hk (fun a ha => ?_) f3) hg ⟨by grind, by grind⟩ ?_
      · have a1 : a ≠ g := by grind
        have a2 : a ≠ p := by grind
        exact ⟨(f10 a a1 a2 (by grind)).1, by rw [f1]; simp [upd, a1], by rw [f2]; simp [upd, a2], (f10 a a1 a2 (by grind)).2⟩
      · simp only [List.nodup_append]; grind
    · obtain ⟨q1, q2, q3, q4⟩ := hcc p (by grind) (by grind)
      obtain ⟨r1, r2, r3, r4⟩ := hcc g (by grind) (by grind)
      refine ⟨hp, by rw [q1, f5], ?_, ?_, ?_, ?_, hg, by rw [r1, f4], ?_, ?_, ?_, ?_, ?_⟩
      · rw [q2, f1]; simp [upd, hpg, hpl]
      · rw [q3, f2]; simp [upd, Tree.top]
      · rw [q4, f8, hgc, hpc]
      · exact hA.frame (fun a ha => hin a (Or.inl ha) (by grind))
      · rw [r2, f1]; simp [upd]
      · rw [r3, f2]; simp [upd, hpg.symm, hgr]
      · rw [r4, f7, hgc]
      · rw [recolorOpt_eq hB]
        refine hB.retop (by grind) (fun a ha hne => hin a (Or.inr (Or.inl ha)) (Or.inl hne)) (fun hne => ?_)
        obtain ⟨s1, s2, s3, s4⟩ := hcc B.top (by grind) (by grind)
        refine ⟨by rw [s1, f6 hne], by rw [s2, f1]; simp [upd, (hBg hne).1], by rw [s3, f2]; simp [upd, (hBg hne).2], by rw [s4, f9 hne]⟩
      · exact hC.frame (fun a ha => hin a (Or.inr (Or.inr ha)) (by grind))
  · intro a ha
    simp only [Tree.inorder, List.mem_append, List.mem_cons] at ha
    have a1 : a ≠ g := by grind
    have a2 : a ≠ p := by grind
    have a3 : up k = 0 ∨ a ≠ up k := by
      cases k with
      | nil => left; rfl
      | cons f k =>
        right
        intro e
        rcases up_mem (f := f) (k := k) with h | h <;> (rw [← e] at h; grind)
    refine Agree.trans (h' := h2) ?_ (childChange_agree h2 a3)
    exact ⟨(f10 a a1 a2 (by grind)).1, by rw [f1]; simp [upd, a1], by rw [f2]; simp [upd, a2], (f10 a a1 a2 (by grind)).2⟩

theorem leftRotate_at (cb : Cb α) {h : Heap α} {k : Ctx} {A B C : Tree} {p g : Addr} {cp cg : Bool} (color ccolor : Option Bool)
    (hat : At h k (.node A g cg (.node B p cp C))) :
    ∃ h', leftRotate cb h g color ccolor = some (h', B.top) ∧
      At h' k (.node (.node A g (color.getD cg) (B.recolorOpt ccolor)) p (if color.isSome then cg else cp) C) ∧
      Others h h' (pre k ++ (Tree.node A g cg (.node B p cp C)).inorder ++ post k) := by
  obtain ⟨hk, ⟨hg, hgp, hgl, hgr, hgc, hA, hp, hpp, hpl, hpr, hpc, hB, hC⟩, hnd⟩ := hat
  simp only [Tree.top] at hk hgr
  have hnd0 := hnd
  simp only [Tree.inorder, List.nodup_append, List.nodup_cons, List.mem_append, List.mem_cons] at hnd
  have hpg : p ≠ g := by grind
  have hbt : B.top ≠ 0 → B.top ∈ B.inorder := top_mem
  have hBg : B.top ≠ 0 → B.top ≠ g ∧ B.top ≠ p := by grind
  unfold leftRotate
  simp only [hgr, if_neg hp, hpl]
  obtain ⟨h2, e, f1, f2, f3, f4, f5, f6, f7, f8, f9, f10⟩ := rotateSet_eq cb ((h.setRight g B.top).setLeft p g) (node := g) (newn := p) (child := B.top) color ccolor hpg hBg
  rw [e]
  simp only [Heap.setLeft, Heap.setRight] at f1 f2 f3 f4 f5 f6 f7 f8 f9 f10
  simp only [Heap.setLeft, Heap.setRight, hgp] at *
  refine ⟨_, rfl, ?_, ?_⟩
  · -- agreement outside the three nodes
    have hup : ∀ a, a ∉ pre k → a ∉ post k → up k = 0 ∨ a ≠ up k := by
      intro a h1 h2
      cases k with
      | nil => left; rfl
      | cons f k =>
        right
        intro e
        rcases up_mem (f := f) (k := k) with h | h <;> (rw [← e] at h; contradiction)
    have hin : ∀ a, a ∈ A.inorder ∨ a ∈ B.inorder ∨ a ∈ C.inorder → a ≠ B.top ∨ B.top = 0 → Agree h (cb.doRotate (childChange h2 (up k) g p) g p) a := by
      intro a ha hat
      have a1 : a ≠ g := by grind
      have a2 : a ≠ p := by grind
      refine Agree.trans (h' := h2) ?_ (childChange_agree h2 (hup a (by grind) (by grind)))
      refine ⟨(f10 a a1 a2 (by grind)).1, by rw [f1]; simp [upd, a2], by rw [f2]; simp [upd, a1], (f10 a a1 a2 (by grind)).2⟩
    have hcc : ∀ a, a ∉ pre k → a ∉ post k → Agree h2 (cb.doRotate (childChange h2 (up k) g p) g p) a := fun a h1 h2' => childChange_agree h2 (hup a h1 h2')
    refine ⟨?_, ?_, by simpa [Tree.inorder] using hnd0⟩
    · simp only [Tree.top]
      refine RepC.frame (h := childChange h2 (up k) g p) ?_ (fun a _ => ⟨rfl, rfl, rfl, rfl⟩) rfl
      refine childChange_repC (RepC.frame hk (fun a ha => ?_) f3) hg ⟨by grind, by grind⟩ ?_
      · have a1 : a ≠ g := by grind
        have a2 : a ≠ p := by grind
        exact ⟨(f10 a a1 a2 (by grind)).1, by rw [f1]; simp [upd, a2], by rw [f2]; simp [upd, a1], (f10 a a1 a2 (by grind)).2⟩
      · simp only [List.nodup_append]; grind
    · obtain ⟨q1, q2, q3, q4⟩ := hcc p (by grind) (by grind)
      obtain ⟨r1, r2, r3, r4⟩ := hcc g (by grind) (by grind)
      refine ⟨hp, by rw [q1, f5], ?_, ?_, ?_, ⟨hg, by rw [r1, f4], ?_, ?_, ?_, ?_, ?_⟩, ?_⟩
      · rw [q2, f1]; simp [upd, Tree.top]
      · rw [q3, f2]; simp [upd, hpg, hpr]
      · rw [q4, f8, hgc, hpc]
      · rw [r2, f1]; simp [upd, hpg.symm, hgl]
      · rw [r3, f2]; simp [upd]
      · rw [r4, f7, hgc]
      · exact hA.frame (fun a ha => hin a (Or.inl ha) (by grind))
      · rw [recolorOpt_eq hB]
        refine hB.retop (by grind) (fun a ha hne => hin a (Or.inr (Or.inl ha)) (Or.inl hne)) (fun hne => ?_)
        obtain ⟨s1, s2, s3, s4⟩ := hcc B.top (by grind) (by grind)
        refine ⟨by rw [s1, f6 hne], by rw [s2, f1]; simp [upd, (hBg hne).2], by rw [s3, f2]; simp [upd, (hBg hne).1], by rw [s4, f9 hne]⟩
      · exact hC.frame (fun a ha => hin a (Or.inr (Or.inr ha)) (by grind))
  · intro a ha
    simp only [Tree.inorder, List.mem_append, List.mem_cons] at ha
    have a1 : a ≠ g := by grind
    have a2 : a ≠ p := by grind
    have a3 : up k = 0 ∨ a ≠ up k := by
      cases k with
      | nil => left; rfl
      | cons f k =>
        right
        intro e
        rcases up_mem (f := f) (k := k) with h | h <;> (rw [← e] at h; grind)
    refine Agree.trans (h' := h2) ?_ (childChange_agree h2 a3)
    exact ⟨(f10 a a1 a2 (by grind)).1, by rw [f1]; simp [upd, a2], by rw [f2]; simp [upd, a1], (f10 a a1 a2 (by grind)).2⟩

/-! ### Colours -/

/-- Painting the top of the subtree. -/
theorem At.paint {h : Heap α} {k : Ctx} {l r : Tree} {a : Addr} {c : Bool} (hat : At h k (.node l a c r)) (c' : Bool) :
    At (h.setBlack a c') k (.node l a c' r) ∧ Others h (h.setBlack a c') (pre k ++ (Tree.node l a c r).inorder ++ post k) := by
  obtain ⟨hk, ⟨h1, h2, h3, h4, h5, h6, h7⟩, hnd⟩ := hat
  have hnd0 := hnd
  simp only [Tree.inorder, List.nodup_append, List.nodup_cons, List.mem_append, List.mem_cons] at hnd
  have key : ∀ b, b ≠ a → Agree h (h.setBlack a c') b := by
    intro b hb
    simp [Agree, Heap.setBlack, upd, hb]
  refine ⟨⟨hk.frame (fun b hb => key b (by grind)) rfl, ⟨h1, h2, h3, h4, by simp [Heap.setBlack, upd], h6.frame (fun b hb => key b (by grind)), h7.frame (fun b hb => key b (by grind))⟩, hnd0⟩,
    fun b hb => key b (by simp [Tree.inorder] at hb; grind)⟩

theorem at_down_left {h : Heap α} {k : Ctx} {l r : Tree} {a : Addr} {c : Bool} : At h k (.node l a c r) ↔ At h (⟨true, a, c, r⟩ :: k) l := by
  rw [at_iff, at_iff]; rfl
theorem at_down_right {h : Heap α} {k : Ctx} {l r : Tree} {a : Addr} {c : Bool} : At h k (.node l a c r) ↔ At h (⟨false, a, c, l⟩ :: k) r := by
  rw [at_iff, at_iff]; rfl

/-! ### Colouring rules seen from a node -/

def topBlack : Ctx → Bool
  | [] => false
  | f :: _ => f.c

/-- The context obeys the rules, if a tree with `n` black nodes on every way is put in the hole. -/
def OKC : Ctx → Nat → Prop
  | [], _ => True
  | ⟨_, _, true, s⟩ :: k, n => RB s n ∧ OKC k (n + 1)
  | ⟨_, _, false, s⟩ :: k, n => RB s n ∧ s.isBlack = true ∧ topBlack k = true ∧ OKC k n

theorem plug_redBlack : ∀ (k : Ctx) (t : Tree) (n : Nat), OKC k n → RB t n → (t.isBlack = true ∨ topBlack k = true) → RedBlack (plug k t)
  | [], t, n, _, hr, hb => ⟨by simpa [topBlack, plug] using hb, n, hr⟩
  | ⟨d, a, true, s⟩ :: k, t, n, ⟨h1, h2⟩, hr, _ => by
    cases d
    · exact plug_redBlack k (.node s a true t) (n + 1) h2 ⟨n, rfl, h1, hr⟩ (Or.inl rfl)
    · exact plug_redBlack k (.node t a true s) (n + 1) h2 ⟨n, rfl, hr, h1⟩ (Or.inl rfl)
  | ⟨d, a, false, s⟩ :: k, t, n, ⟨h1, h2, h3, h4⟩, hr, hb => by
    have hb' : t.isBlack = true := by simpa [topBlack] using hb
    cases d
    · exact plug_redBlack k (.node s a false t) n h4 ⟨h2, hb', h1, hr⟩ (Or.inr h3)
    · exact plug_redBlack k (.node t a false s) n h4 ⟨hb', h2, hr, h1⟩ (Or.inr h3)

theorem redBlack_plug : ∀ (k : Ctx) (t : Tree), RedBlack (plug k t) → ∃ n, OKC k n ∧ RB t n ∧ (t.isBlack = true ∨ topBlack k = true)
  | [], t, ⟨hb, n, hr⟩ => ⟨n, trivial, hr, Or.inl hb⟩
  | ⟨d, a, c, s⟩ :: k, t, h => by
    cases d
    · obtain ⟨n, h1, h2, h3⟩ := redBlack_plug k (.node s a c t) h
      cases c
      · obtain ⟨r1, r2, r3, r4⟩ := h2
        exact ⟨n, ⟨r3, r1, by simpa [Tree.isBlack] using h3, h1⟩, r4, Or.inl r2⟩
      · obtain ⟨m, rfl, r1, r2⟩ := h2
        exact ⟨m, ⟨r1, h1⟩, r2, Or.inr rfl⟩
    · obtain ⟨n, h1, h2, h3⟩ := redBlack_plug k (.node t a c s) h
      cases c
      · obtain ⟨r1, r2, r3, r4⟩ := h2
        exact ⟨n, ⟨r4, r2, by simpa [Tree.isBlack] using h3, h1⟩, r3, Or.inl r1⟩
      · obtain ⟨m, rfl, r1, r2⟩ := h2
        exact ⟨m, ⟨r2, h1⟩, r1, Or.inr rfl⟩

end Bfdev.Rbtree

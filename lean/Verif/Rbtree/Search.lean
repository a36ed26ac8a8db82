import Verif.Rbtree.Remove
/-!
Searching the tree, linking a new node, and the complete operations.
-/
set_option linter.unusedSimpArgs false
namespace Bfdev.Rbtree
variable {α : Type}

theorem exists_ctx : ∀ (t : Tree) {x : Addr}, x ∈ t.inorder → ∃ k l c r, t = plug k (.node l x c r)
  | .nil, x, hx => by simp [Tree.inorder] at hx
  | .node l a c r, x, hx => by
    simp only [Tree.inorder, List.mem_append, List.mem_cons] at hx
    rcases hx with hx | rfl | hx
    · obtain ⟨k, l2, c2, r2, rfl⟩ := exists_ctx l hx
      exact ⟨k ++ [⟨true, a, c, r⟩], l2, c2, r2, by rw [plug_append]; rfl⟩
    · exact ⟨[], l, c, r, rfl⟩
    · obtain ⟨k, l2, c2, r2, rfl⟩ := exists_ctx r hx
      exact ⟨k ++ [⟨false, a, c, l⟩], l2, c2, r2, by rw [plug_append]; rfl⟩

theorem erase_mid {A B : List Addr} {x : Addr} (h : x ∉ A) : (A ++ x :: B).erase x = A ++ B := by
  rw [List.erase_append, if_neg h]; simp

theorem delete_holds (cb : Cb α) {h : Heap α} {t : Tree} {x : Addr} {fuel : Nat} (hh : Holds h t) (hrb : RedBlack t) (hx : x ∈ t.inorder) (hf : t.height ≤ fuel) :
    ∃ h' t', delete cb fuel h x = some h' ∧ Holds h' t' ∧ t'.inorder = t.inorder.erase x ∧ RedBlack t' ∧ Others h h' t.inorder := by
  obtain ⟨k, l, c, r, rfl⟩ := exists_ctx t hx
  obtain ⟨h2, reb, e, ho, hR⟩ := remove_at cb (at_iff.2 hh) hrb hf
  have hL : (plug k (.node l x c r)).inorder.erase x = pre k ++ (l.inorder ++ r.inorder) ++ post k := by
    have hnd := hh.2.2
    rw [inorder_plug] at hnd ⊢
    simp only [Tree.inorder, List.append_assoc, List.cons_append] at hnd ⊢
    rw [← List.append_assoc, erase_mid]
    · simp
    · simp only [List.nodup_append, List.nodup_cons, List.mem_append, List.mem_cons] at hnd ⊢; grind
  have hxL : x ∉ pre k ++ (l.inorder ++ r.inorder) ++ post k := by
    rw [← hL]; exact List.Nodup.not_mem_erase hh.2.2
  have hsub : ∀ a, a ∈ pre k ++ (l.inorder ++ r.inorder) ++ post k → a ∈ (plug k (.node l x c r)).inorder := by
    intro a ha; rw [← hL] at ha; exact List.mem_of_mem_erase ha
  have hpo : ∀ (g : Heap α) a, a ≠ x → Agree g (poison g x) a := by
    intro g a ha; simp [Agree, poison, Heap.setLeft, Heap.setRight, Heap.setPar, upd, ha]
  have hfin : ∀ {g : Heap α} {t' : Tree}, Holds g t' → t'.inorder = pre k ++ (l.inorder ++ r.inorder) ++ post k → Holds (poison g x) t' := by
    intro g t' hg ht
    refine hg.frame (fun a ha => hpo g a ?_) rfl
    rintro rfl
    rw [ht] at ha; exact hxL ha
  have hot : ∀ {g : Heap α}, Others h g (plug k (.node l x c r)).inorder → Others h (poison g x) (plug k (.node l x c r)).inorder := by
    intro g hg a ha
    exact (hg a ha).trans (hpo g a (fun e => ha (by rw [e]; exact hx)))
  rw [hL]
  unfold delete
  rw [e]
  simp only
  rcases hR with ⟨rfl, t2, q1, q2, q3⟩ | ⟨k2, q0, rfl, q1, q2, q3, q4⟩
  · exact ⟨_, t2, rfl, hfin q1 q2, q2, q3, hot ho⟩
  · have hup : up k2 ≠ 0 := fun e => q0 (q1.1.up_ne_zero.1 e)
    obtain ⟨h3, t3, e3, w1, w2, w3, w4⟩ := erase_at cb fuel k2 q1 q0 (n := 0) rfl rfl q2 (by omega) q3
    rw [if_pos hup]
    refine ⟨poison h3 x, t3, ?_, hfin w1 w2, w2, w3, hot (ho.trans (fun a ha => w4 a (fun hc => ha (hsub a hc))))⟩
    rw [erase, show (0 : Addr) = Tree.nil.top from rfl, e3]; rfl

/-! ### Searching -/


/-- The link that leads to the hole. -/
def linkOf : Ctx → Link
  | [] => .root
  | ⟨true, a, _, _⟩ :: _ => .left a
  | ⟨false, a, _, _⟩ :: _ => .right a

theorem linkOf_get {h : Heap α} {k : Ctx} {x : Addr} (hk : RepC h k x) : (linkOf k).get h = x := by
  rcases k with _ | ⟨⟨d, a, c, s⟩, k⟩
  · exact hk
  · cases d
    · exact hk.2.2.2.1
    · exact hk.2.2.1

theorem Fits.at {f : Addr → Int} {k : Ctx} {l r : Tree} {x : Addr} {c : Bool} (ha : Fits f (pre k ++ (Tree.node l x c r).inorder ++ post k)) :
    (0 < f x → ∀ a, a ∈ r.inorder → 0 < f a) ∧ (f x < 0 → ∀ a, a ∈ l.inorder → f a < 0) := by
  simp only [Fits, Tree.inorder, List.pairwise_append, List.pairwise_cons, List.mem_append, List.mem_cons] at ha
  exact ⟨fun h a h' => (ha.1.2.1.2.1.1 a h').1 h, fun h a h' => (ha.1.2.1.2.2 a h' x (Or.inl rfl)).2 h⟩

theorem find_at {h : Heap α} {f : Addr → Int} : ∀ (fuel : Nat) (k : Ctx) (t : Tree), At h k t → Fits f (pre k ++ t.inorder ++ post k) → t.height < fuel →
    (∀ a, a ∈ pre k → f a < 0) → (∀ a, a ∈ post k → 0 < f a) →
    ∃ p, find h f fuel t.top = some p ∧ ((p ∈ t.inorder ∧ p ≠ 0 ∧ f p = 0) ∨ (p = 0 ∧ ∀ a, a ∈ pre k ++ t.inorder ++ post k → f a ≠ 0))
  | 0, _, _, _, _, hf, _, _ => absurd hf (Nat.not_lt_zero _)
  | fuel + 1, k, .nil, hat, ha, hf, h1, h2 => by
    refine ⟨0, by simp [find, Tree.top], Or.inr ⟨rfl, ?_⟩⟩
    intro a hm
    simp only [Tree.inorder, List.append_nil, List.mem_append] at hm
    rcases hm with hm | hm
    · have := h1 a hm; omega
    · have := h2 a hm; omega
  | fuel + 1, k, .node l x c r, hat, ha, hf, h1, h2 => by
    have hat0 := hat
    obtain ⟨hk, ⟨x1, x2, x3, x4, x5, x6, x7⟩, hnd⟩ := hat
    obtain ⟨al, ar⟩ := ha.at
    simp only [Tree.height] at hf
    rw [find, show (Tree.node l x c r).top = x from rfl, if_neg x1]
    by_cases hz : f x = 0
    · rw [if_pos hz]
      exact ⟨x, rfl, Or.inl ⟨by simp [Tree.inorder], x1, hz⟩⟩
    · rw [if_neg hz]
      by_cases hp : f x > 0
      · rw [if_pos hp, x3]
        obtain ⟨p, e, hr⟩ := find_at fuel (⟨true, x, c, r⟩ :: k) l (at_down_left.1 hat0) (by simpa [pre, post, Tree.inorder] using ha) (by omega) h1 (by
          intro a hm
          simp only [post, List.cons_append, List.mem_cons, List.mem_append] at hm
          rcases hm with rfl | hm | hm
          · exact hp
          · exact al hp a hm
          · exact h2 a hm)
        refine ⟨p, e, ?_⟩
        rcases hr with ⟨q1, q2⟩ | ⟨q1, q2⟩
        · exact Or.inl ⟨by simp [Tree.inorder, q1], q2⟩
        · exact Or.inr ⟨q1, by simpa [pre, post, Tree.inorder] using q2⟩
      · rw [if_neg hp, x4]
        obtain ⟨p, e, hr⟩ := find_at fuel (⟨false, x, c, l⟩ :: k) r (at_down_right.1 hat0) (by simpa [pre, post, Tree.inorder] using ha) (by omega) (by
          intro a hm
          simp only [pre, List.mem_append, List.mem_singleton] at hm
          rcases hm with hm | hm | rfl
          · exact h1 a hm
          · exact ar (by omega) a hm
          · omega) h2
        refine ⟨p, e, ?_⟩
        rcases hr with ⟨q1, q2⟩ | ⟨q1, q2⟩
        · exact Or.inl ⟨by simp [Tree.inorder, q1], q2⟩
        · exact Or.inr ⟨q1, by simpa [pre, post, Tree.inorder] using q2⟩

/-- Where a search that finds nothing ends. -/
def Place (f : Addr → Int) (t : Tree) (link : Link) (parent : Addr) (leftmost : Bool) : Prop :=
  ∃ k, plug k .nil = t ∧ link = linkOf k ∧ parent = up k ∧ leftmost = (pre k).isEmpty ∧ (∀ a, a ∈ pre k → f a < 0) ∧ (∀ a, a ∈ post k → 0 < f a)

theorem parentLoop_at {h : Heap α} {c : Addr → Int} : ∀ (fuel : Nat) (k : Ctx) (l r : Tree) (x : Addr) (cx : Bool), At h k (.node l x cx r) →
    Fits (fun a => - c a) (pre k ++ (Tree.node l x cx r).inorder ++ post k) → (Tree.node l x cx r).height ≤ fuel →
    (∀ a, a ∈ pre k → - c a < 0) → (∀ a, a ∈ post k → 0 < - c a) →
    (parentLoop h c fuel (linkOf k) (pre k).isEmpty = some none ∧ ∃ a, a ∈ pre k ++ (Tree.node l x cx r).inorder ++ post k ∧ c a = 0) ∨
    (∃ link p lm, parentLoop h c fuel (linkOf k) (pre k).isEmpty = some (some (link, p, lm)) ∧ Place (fun a => - c a) (plug k (.node l x cx r)) link p lm)
  | 0, _, _, _, _, _, _, _, hf, _, _ => by simp [Tree.height] at hf
  | fuel + 1, k, l, r, x, cx, hat, ha, hf, h1, h2 => by
    have hat0 := hat
    obtain ⟨hk, ⟨x1, x2, x3, x4, x5, x6, x7⟩, hnd⟩ := hat
    obtain ⟨al, ar⟩ := ha.at
    simp only [Tree.height] at hf
    have hget := linkOf_get hk
    simp only [Tree.top] at hget
    rw [parentLoop]
    simp only [hget]
    by_cases hz : c x = 0
    · rw [if_pos hz]
      exact Or.inl ⟨rfl, x, by simp [Tree.inorder], hz⟩
    · rw [if_neg hz]
      by_cases hn : c x < 0
      · rw [if_pos hn, x3]
        have hA : At h (⟨true, x, cx, r⟩ :: k) l := at_down_left.1 hat0
        have hpost : ∀ a, a ∈ post (⟨true, x, cx, r⟩ :: k) → 0 < - c a := by
          intro a hm
          simp only [post, List.cons_append, List.mem_cons, List.mem_append] at hm
          rcases hm with rfl | hm | hm
          · omega
          · exact al (by omega) a hm
          · exact h2 a hm
        cases l with
        | nil =>
          rw [if_neg (by simp [Tree.top])]
          exact Or.inr ⟨_, _, _, rfl, ⟨true, x, cx, r⟩ :: k, rfl, rfl, rfl, rfl, h1, hpost⟩
        | node l2 a2 c2 r2 =>
          have hlz : (Tree.node l2 a2 c2 r2).top ≠ 0 := x6.1
          rw [if_pos hlz]
          have := parentLoop_at fuel (⟨true, x, cx, r⟩ :: k) l2 r2 a2 c2 hA (by simpa [pre, post, Tree.inorder] using ha) (by omega) h1 hpost
          simpa [pre, post, Tree.inorder, plug, linkOf] using this
      · rw [if_neg hn, x4]
        have hA : At h (⟨false, x, cx, l⟩ :: k) r := at_down_right.1 hat0
        have hpre : ∀ a, a ∈ pre (⟨false, x, cx, l⟩ :: k) → - c a < 0 := by
          intro a hm
          simp only [pre, List.mem_append, List.mem_singleton] at hm
          rcases hm with hm | hm | rfl
          · exact h1 a hm
          · exact ar (by omega) a hm
          · omega
        have hlm : (pre (⟨false, x, cx, l⟩ :: k)).isEmpty = false := by simp [pre]
        cases r with
        | nil =>
          rw [if_neg (by simp [Tree.top])]
          exact Or.inr ⟨_, _, _, rfl, ⟨false, x, cx, l⟩ :: k, rfl, rfl, rfl, hlm.symm, hpre, h2⟩
        | node l2 a2 c2 r2 =>
          have hlz : (Tree.node l2 a2 c2 r2).top ≠ 0 := x7.1
          rw [if_pos hlz]
          have := parentLoop_at fuel (⟨false, x, cx, l⟩ :: k) l2 r2 a2 c2 hA (by simpa [pre, post, Tree.inorder] using ha) (by omega) hpre h2
          rw [hlm] at this
          simpa [pre, post, Tree.inorder, plug, linkOf] using this

theorem findLastLoop_at {h : Heap α} {f : Addr → Int} : ∀ (fuel : Nat) (k : Ctx) (l r : Tree) (x : Addr) (cx : Bool), At h k (.node l x cx r) →
    Fits f (pre k ++ (Tree.node l x cx r).inorder ++ post k) → (Tree.node l x cx r).height ≤ fuel →
    (∀ a, a ∈ pre k → f a < 0) → (∀ a, a ∈ post k → 0 < f a) →
    (∃ p link lm, findLastLoop h f fuel (linkOf k) (pre k).isEmpty = some (p, link, p, lm) ∧ link.get h = p ∧ p ≠ 0 ∧ p ∈ pre k ++ (Tree.node l x cx r).inorder ++ post k ∧ f p = 0) ∨
    (∃ link p lm, findLastLoop h f fuel (linkOf k) (pre k).isEmpty = some (0, link, p, lm) ∧ Place f (plug k (.node l x cx r)) link p lm)
  | 0, _, _, _, _, _, _, _, hf, _, _ => by simp [Tree.height] at hf
  | fuel + 1, k, l, r, x, cx, hat, ha, hf, h1, h2 => by
    have hat0 := hat
    obtain ⟨hk, ⟨x1, x2, x3, x4, x5, x6, x7⟩, hnd⟩ := hat
    obtain ⟨al, ar⟩ := ha.at
    simp only [Tree.height] at hf
    have hget := linkOf_get hk
    simp only [Tree.top] at hget
    rw [findLastLoop]
    simp only [hget]
    by_cases hz : f x = 0
    · rw [if_pos hz]
      exact Or.inl ⟨x, _, _, rfl, hget, x1, by simp [Tree.inorder], hz⟩
    · rw [if_neg hz]
      by_cases hn : f x > 0
      · rw [if_pos hn, x3]
        have hA : At h (⟨true, x, cx, r⟩ :: k) l := at_down_left.1 hat0
        have hpost : ∀ a, a ∈ post (⟨true, x, cx, r⟩ :: k) → 0 < f a := by
          intro a hm
          simp only [post, List.cons_append, List.mem_cons, List.mem_append] at hm
          rcases hm with rfl | hm | hm
          · omega
          · exact al (by omega) a hm
          · exact h2 a hm
        cases l with
        | nil =>
          rw [if_neg (by simp [Tree.top])]
          exact Or.inr ⟨_, _, _, rfl, ⟨true, x, cx, r⟩ :: k, rfl, rfl, rfl, rfl, h1, hpost⟩
        | node l2 a2 c2 r2 =>
          have hlz : (Tree.node l2 a2 c2 r2).top ≠ 0 := x6.1
          rw [if_pos hlz]
          have := findLastLoop_at fuel (⟨true, x, cx, r⟩ :: k) l2 r2 a2 c2 hA (by simpa [pre, post, Tree.inorder] using ha) (by omega) h1 hpost
          simpa [pre, post, Tree.inorder, plug, linkOf] using this
      · rw [if_neg hn, x4]
        have hA : At h (⟨false, x, cx, l⟩ :: k) r := at_down_right.1 hat0
        have hpre : ∀ a, a ∈ pre (⟨false, x, cx, l⟩ :: k) → f a < 0 := by
          intro a hm
          simp only [pre, List.mem_append, List.mem_singleton] at hm
          rcases hm with hm | hm | rfl
          · exact h1 a hm
          · exact ar (by omega) a hm
          · omega
        have hlm : (pre (⟨false, x, cx, l⟩ :: k)).isEmpty = false := by simp [pre]
        cases r with
        | nil =>
          rw [if_neg (by simp [Tree.top])]
          exact Or.inr ⟨_, _, _, rfl, ⟨false, x, cx, l⟩ :: k, rfl, rfl, rfl, hlm.symm, hpre, h2⟩
        | node l2 a2 c2 r2 =>
          have hlz : (Tree.node l2 a2 c2 r2).top ≠ 0 := x7.1
          rw [if_pos hlz]
          have := findLastLoop_at fuel (⟨false, x, cx, l⟩ :: k) l2 r2 a2 c2 hA (by simpa [pre, post, Tree.inorder] using ha) (by omega) hpre h2
          rw [hlm] at this
          simpa [pre, post, Tree.inorder, plug, linkOf] using this

theorem holds_nil {h : Heap α} {t : Tree} (hh : Holds h t) (hr : h.root = 0) : t = .nil := by
  cases t with
  | nil => rfl
  | node l a c r => exact absurd (hh.1.symm.trans hr) hh.2.1.1

theorem holds_node {h : Heap α} {t : Tree} (hh : Holds h t) (hr : h.root ≠ 0) : ∃ l a c r, t = .node l a c r := by
  cases t with
  | nil => exact absurd hh.1 hr
  | node l a c r => exact ⟨l, a, c, r, rfl⟩

theorem at_root {h : Heap α} {t : Tree} (hh : Holds h t) : At h [] t := at_iff.2 hh

theorem find_holds {h : Heap α} {f : Addr → Int} {t : Tree} {fuel : Nat} (hh : Holds h t) (ha : Fits f t.inorder) (hf : t.height < fuel) :
    ∃ p, find h f fuel h.root = some p ∧ ((p ∈ t.inorder ∧ p ≠ 0 ∧ f p = 0) ∨ (p = 0 ∧ ∀ a, a ∈ t.inorder → f a ≠ 0)) := by
  have := find_at (f := f) fuel [] t (at_root hh) (by simpa [pre, post] using ha) hf (by simp [pre]) (by simp [post])
  rw [hh.1]
  simpa [pre, post] using this

theorem parent_holds {h : Heap α} {c : Addr → Int} {t : Tree} {fuel : Nat} (hh : Holds h t) (ha : Fits (fun a => - c a) t.inorder) (hf : t.height ≤ fuel) :
    (parent h c fuel = some none ∧ ∃ a, a ∈ t.inorder ∧ c a = 0) ∨
    (∃ link p lm, parent h c fuel = some (some (link, p, lm)) ∧ Place (fun a => - c a) t link p lm) := by
  unfold parent
  by_cases hr : h.root = 0
  · rw [if_pos hr]
    obtain rfl := holds_nil hh hr
    exact Or.inr ⟨_, _, _, rfl, [], rfl, rfl, rfl, rfl, by simp [pre], by simp [post]⟩
  · rw [if_neg hr]
    obtain ⟨l, a, cx, r, rfl⟩ := holds_node hh hr
    have := parentLoop_at (c := c) fuel [] l r a cx (at_root hh) (by simpa [pre, post] using ha) hf (by simp [pre]) (by simp [post])
    simpa [pre, post, linkOf, plug] using this

theorem findLast_holds {h : Heap α} {f : Addr → Int} {t : Tree} {fuel : Nat} (hh : Holds h t) (ha : Fits f t.inorder) (hf : t.height ≤ fuel) :
    (∃ p link lm, findLast h f fuel = some (p, link, p, lm) ∧ link.get h = p ∧ p ≠ 0 ∧ p ∈ t.inorder ∧ f p = 0) ∨
    (∃ link p lm, findLast h f fuel = some (0, link, p, lm) ∧ Place f t link p lm) := by
  unfold findLast
  by_cases hr : h.root = 0
  · rw [if_pos hr]
    obtain rfl := holds_nil hh hr
    exact Or.inr ⟨_, _, _, rfl, [], rfl, rfl, rfl, rfl, by simp [pre], by simp [post]⟩
  · rw [if_neg hr]
    obtain ⟨l, a, cx, r, rfl⟩ := holds_node hh hr
    have := findLastLoop_at (f := f) fuel [] l r a cx (at_root hh) (by simpa [pre, post] using ha) hf (by simp [pre]) (by simp [post])
    simpa [pre, post, linkOf, plug] using this

/-! ### Linking -/

theorem link_at {h : Heap α} {k : Ctx} {x : Addr} (hat : At h k .nil) (hx : x ≠ 0) (hxk : x ∉ (plug k .nil).inorder) :
    At (link h (up k) (linkOf k) x) k (.node .nil x false .nil) ∧ Others h (link h (up k) (linkOf k) x) (x :: (plug k .nil).inorder) := by
  obtain ⟨hk, _, hnd⟩ := hat
  rw [inorder_plug] at hxk
  have hnd2 : (pre k ++ [x] ++ post k).Nodup := by
    simp only [Tree.inorder, List.append_nil, List.nodup_append, List.mem_append, List.nodup_cons, List.mem_singleton, List.not_mem_nil, List.nodup_nil] at hnd hxk ⊢; grind
  have hag : ∀ a, a ≠ x → Agree ((linkOf k).set h x) (link h (up k) (linkOf k) x) a := by
    intro a ha
    simp [Agree, link, Heap.setPar, Heap.setBlack, Heap.setRight, Heap.setLeft, upd, ha]
  have hset : ∀ a, a ≠ up k ∨ k = [] → Agree h ((linkOf k).set h x) a := by
    intro a ha
    rcases k with _ | ⟨⟨d, b, c, s⟩, k⟩
    · exact ⟨rfl, rfl, rfl, rfl⟩
    · have : a ≠ b := by simpa [up] using ha
      cases d <;> simp [linkOf, Link.set, Agree, Heap.setLeft, Heap.setRight, upd, this]
  have hRC : RepC ((linkOf k).set h x) k x := by
    rcases k with _ | ⟨⟨d, b, c, s⟩, k⟩
    · rfl
    · have hb : b ∉ s.inorder ∧ b ∉ pre k ∧ b ∉ post k := by
        cases d <;> simp only [pre, post, Tree.inorder, List.append_nil, List.nodup_append, List.nodup_cons, List.mem_append, List.mem_cons, List.mem_singleton] at hnd <;> grind
      cases d
      · obtain ⟨h1, h2, h3, h4, h5, h6, h7⟩ := hk
        refine ⟨h1, h2, h3, by simp [linkOf, Link.set, Heap.setRight, upd], h5, h6.frame (fun a ha => hset a (Or.inl ?_)), h7.frame (fun a ha => hset a (Or.inl ?_)) rfl⟩
        · rintro rfl; exact hb.1 ha
        · rintro rfl; exact ha.elim hb.2.1 hb.2.2
      · obtain ⟨h1, h2, h3, h4, h5, h6, h7⟩ := hk
        refine ⟨h1, h2, by simp [linkOf, Link.set, Heap.setLeft, upd], h4, h5, h6.frame (fun a ha => hset a (Or.inl ?_)), h7.frame (fun a ha => hset a (Or.inl ?_)) rfl⟩
        · rintro rfl; exact hb.1 ha
        · rintro rfl; exact ha.elim hb.2.1 hb.2.2
  refine ⟨⟨?_, ?_, by simpa [Tree.inorder] using hnd2⟩, ?_⟩
  · refine hRC.frame (fun a ha => hag a ?_) rfl
    rintro rfl
    simp [Tree.inorder] at hxk; grind
  · refine ⟨hx, ?_, ?_, ?_, ?_, trivial, trivial⟩ <;> simp [link, Heap.setPar, Heap.setBlack, Heap.setRight, Heap.setLeft, upd, Tree.top]
  · intro a ha
    rw [inorder_plug] at ha
    simp only [Tree.inorder, List.append_nil, List.mem_cons, List.mem_append, not_or] at ha
    refine (hset a ?_).trans (hag a ha.1)
    rcases k with _ | ⟨f, k⟩
    · exact Or.inr rfl
    · left
      rintro rfl
      exact (up_mem (f := f) (k := k)).elim ha.2.1 ha.2.2

/-- Inserting at any empty place. -/
theorem insertNode_at (cb : Cb α) {h : Heap α} {k : Ctx} {x : Addr} {fuel : Nat} (hh : Holds h (plug k .nil)) (hrb : RedBlack (plug k .nil)) (hx : x ≠ 0) (hxk : x ∉ (plug k .nil).inorder)
    (hf : (plug k .nil).height < fuel) : Done (insertNode cb fuel h (up k) (linkOf k) x) h (pre k ++ x :: post k) := by
  obtain ⟨hA, ho⟩ := link_at (at_iff.2 hh) hx hxk
  obtain ⟨n, hOK, hRB, _⟩ := redBlack_plug k _ hrb
  have hn : n = 0 := hRB
  subst hn
  have hlen := length_height k .nil
  simp only [Tree.height] at hlen
  obtain ⟨h', t', e, q1, q2, q3, q4⟩ := fixup_at cb fuel k hA (n := 0) (L := pre k ++ x :: post k) ⟨rfl, rfl, rfl, rfl⟩ hOK (by omega) (by simp [inorder_plug, Tree.inorder])
  refine ⟨h', t', e, q1, q2, q3, (fun a ha => (ho a ?_).trans (q4 a ha))⟩
  rw [inorder_plug]; simp only [Tree.inorder, List.append_nil, List.mem_append, List.mem_cons] at ha ⊢; grind

theorem insert_holds (cb : Cb α) {h : Heap α} {c : Addr → Int} {t : Tree} {x : Addr} {fuel : Nat} (hh : Holds h t) (hrb : RedBlack t) (ha : Fits (fun a => - c a) t.inorder)
    (hx : x ≠ 0) (hxt : x ∉ t.inorder) (hf : t.height < fuel) :
    (insert cb fuel h x c = some (h, false) ∧ ∃ a, a ∈ t.inorder ∧ c a = 0) ∨
    (∃ h' A B t', t.inorder = A ++ B ∧ (∀ a, a ∈ A → 0 < c a) ∧ (∀ a, a ∈ B → c a < 0) ∧ insert cb fuel h x c = some (h', true) ∧ Holds h' t' ∧ t'.inorder = A ++ x :: B ∧ RedBlack t' ∧ Others h h' (A ++ x :: B)) := by
  unfold insert
  rcases parent_holds (fuel := fuel) hh ha (by omega) with ⟨e, he⟩ | ⟨link, p, lm, e, k, rfl, rfl, rfl, _, h1, h2⟩
  · left; rw [e]; exact ⟨rfl, he⟩
  · right
    obtain ⟨h', t', e', q1, q2, q3, q4⟩ := insertNode_at cb hh hrb hx hxt hf
    rw [e]
    refine ⟨h', pre k, post k, t', by simp [inorder_plug, Tree.inorder], fun a ha => by have := h1 a ha; simp only at this; omega, fun a ha => by have := h2 a ha; simp only at this; omega, ?_, q1, q2, q3, q4⟩
    simp [e']

/-! ### Height -/

theorem rb_size : ∀ (t : Tree) (n : Nat), RB t n → 2 ^ n ≤ t.size + 1 ∧ t.height ≤ 2 * n + (if t.isBlack = true then 0 else 1)
  | .nil, n, h => by
    have : n = 0 := h
    subst this
    simp [Tree.size, Tree.inorder, Tree.height]
  | .node l a true r, n, h => by
    obtain ⟨m, rfl, h1, h2⟩ := h
    obtain ⟨a1, a2⟩ := rb_size l m h1
    obtain ⟨b1, b2⟩ := rb_size r m h2
    have i1 : (if l.isBlack = true then 0 else 1) ≤ 1 := by split <;> omega
    have i2 : (if r.isBlack = true then 0 else 1) ≤ 1 := by split <;> omega
    simp only [Tree.size] at a1 b1
    refine ⟨?_, ?_⟩
    · simp only [Tree.size, Tree.inorder, List.length_append, List.length_cons, Nat.pow_succ]; omega
    · simp only [Tree.height, Tree.isBlack, if_true]; omega
  | .node l a false r, n, h => by
    obtain ⟨b1, b2, h1, h2⟩ := h
    obtain ⟨a1, a2⟩ := rb_size l n h1
    obtain ⟨c1, c2⟩ := rb_size r n h2
    rw [b1] at a2
    rw [b2] at c2
    simp only [Tree.size, if_true] at a1 c1 a2 c2
    refine ⟨?_, ?_⟩
    · simp only [Tree.size, Tree.inorder, List.length_append, List.length_cons]; omega
    · simp only [Tree.height, Tree.isBlack, Bool.false_eq_true, if_false]; omega

theorem redBlack_height {t : Tree} (h : RedBlack t) : t.height ≤ 2 * Nat.log2 (t.size + 1) := by
  obtain ⟨hb, n, hn⟩ := h
  obtain ⟨h1, h2⟩ := rb_size t n hn
  rw [hb] at h2
  simp only [if_true] at h2
  have : n ≤ Nat.log2 (t.size + 1) := (Nat.le_log2 (by omega)).2 h1
  omega

end Bfdev.Rbtree

import Verif.Rbtree.Search
/-!
Iteration: from each node the next one of the three orders is reached.
-/
set_option linter.unusedSimpArgs false
namespace Bfdev.Rbtree
variable {α : Type}

theorem nodup_split {y : Addr} : ∀ {A B A' B' : List Addr}, (A ++ y :: B).Nodup → A ++ y :: B = A' ++ y :: B' → A = A' ∧ B = B'
  | [], B, [], B', _, e => by simpa using e
  | [], B, a :: A', B', hn, e => by
    simp only [List.nil_append, List.cons_append, List.cons.injEq] at e hn
    rw [e.2] at hn; simp at hn
  | a :: A, B, [], B', hn, e => by
    simp only [List.nil_append, List.cons_append, List.cons.injEq] at e hn
    rw [e.1] at hn; simp at hn
  | a :: A, B, a' :: A', B', hn, e => by
    simp only [List.cons_append, List.cons.injEq] at e hn
    obtain ⟨h1, h2⟩ := nodup_split (List.nodup_cons.1 hn).2 e.2
    exact ⟨by rw [e.1, h1], h2⟩

theorem walk_all {nxt : Addr → Option Addr} {L : List Addr} (h0 : ∀ a, a ∈ L → a ≠ 0) (hs : ∀ A y B, L = A ++ y :: B → nxt y = some (B.headD 0)) :
    ∀ (B A : List Addr) (fuel : Nat), L = A ++ B → B.length < fuel → walk nxt fuel (B.headD 0) = some B
  | [], _, fuel + 1, _, _ => by simp [walk]
  | _, _, 0, _, hf => absurd hf (Nat.not_lt_zero _)
  | y :: B, A, fuel + 1, e, hf => by
    have hy : y ≠ 0 := h0 y (by rw [e]; simp)
    rw [walk, List.headD_cons, if_neg hy, hs A y B e]
    simp only
    rw [walk_all h0 hs B (A ++ [y]) fuel (by simp [e]) (by simp at hf; omega)]
    rfl

/-! ### In-order -/

theorem leftFar_rep {h : Heap α} : ∀ (t : Tree) (p : Addr) (fuel : Nat), Rep h p t → t ≠ .nil → t.height ≤ fuel → leftFar h fuel t.top = some (t.inorder.headD 0)
  | .nil, _, _, _, hn, _ => absurd rfl hn
  | .node _ _ _ _, _, 0, _, _, hf => by simp [Tree.height] at hf
  | .node .nil a c r, p, fuel + 1, hr, _, _ => by
    have : h.left a = 0 := hr.2.2.1
    simp [leftFar, Tree.top, this, Tree.inorder]
  | .node (.node l2 a2 c2 r2) a c r, p, fuel + 1, hr, _, hf => by
    have h1 : h.left a = a2 := hr.2.2.1
    have h2 : a2 ≠ 0 := hr.2.2.2.2.2.1.1
    have ih := leftFar_rep (.node l2 a2 c2 r2) a fuel hr.2.2.2.2.2.1 (by simp) (by simp only [Tree.height] at hf ⊢; omega)
    rw [leftFar, show (Tree.node (.node l2 a2 c2 r2) a c r).top = a from rfl, h1, if_pos h2]
    rw [show (Tree.node l2 a2 c2 r2).top = a2 from rfl] at ih
    rw [ih]
    rw [show (Tree.node (.node l2 a2 c2 r2) a c r).inorder = (Tree.node l2 a2 c2 r2).inorder ++ a :: r.inorder from rfl]
    cases hi : (Tree.node l2 a2 c2 r2).inorder with
    | nil => simp [Tree.inorder] at hi
    | cons b bs => rfl

theorem rightFar_rep {h : Heap α} : ∀ (t : Tree) (p : Addr) (fuel : Nat), Rep h p t → t ≠ .nil → t.height ≤ fuel → rightFar h fuel t.top = some (t.inorder.reverse.headD 0)
  | .nil, _, _, _, hn, _ => absurd rfl hn
  | .node _ _ _ _, _, 0, _, _, hf => by simp [Tree.height] at hf
  | .node l a c .nil, p, fuel + 1, hr, _, _ => by
    have : h.right a = 0 := hr.2.2.2.1
    simp [rightFar, Tree.top, this, Tree.inorder]
  | .node l a c (.node l2 a2 c2 r2), p, fuel + 1, hr, _, hf => by
    have h1 : h.right a = a2 := hr.2.2.2.1
    have h2 : a2 ≠ 0 := hr.2.2.2.2.2.2.1
    have ih := rightFar_rep (.node l2 a2 c2 r2) a fuel hr.2.2.2.2.2.2 (by simp) (by simp only [Tree.height] at hf ⊢; omega)
    rw [rightFar, show (Tree.node l a c (.node l2 a2 c2 r2)).top = a from rfl, h1, if_pos h2]
    rw [show (Tree.node l2 a2 c2 r2).top = a2 from rfl] at ih
    rw [ih]
    rw [show (Tree.node l a c (.node l2 a2 c2 r2)).inorder = l.inorder ++ a :: (Tree.node l2 a2 c2 r2).inorder from rfl]
    cases hi : (Tree.node l2 a2 c2 r2).inorder.reverse with
    | nil => simp [Tree.inorder] at hi
    | cons b bs => simp [hi]

theorem sib_ne {h : Heap α} {p x : Addr} {s : Tree} (hr : Rep h p s) (hx : x ≠ 0) (hxs : x ∉ s.inorder) : s.top ≠ x := fun e => by
  by_cases hz : s.top = 0
  · exact hx (e.symm.trans hz)
  · exact hxs (e ▸ top_mem hz)

theorem climbNext_at {h : Heap α} : ∀ (k : Ctx) (x : Addr) (fuel : Nat), RepC h k x → h.par x = up k → x ≠ 0 → x ∉ pre k ∧ x ∉ post k → (pre k ++ post k).Nodup → k.length < fuel →
    climbNext h fuel x = some ((post k).headD 0)
  | _, _, 0, _, _, _, _, _, hf => absurd hf (Nat.not_lt_zero _)
  | [], x, fuel + 1, _, hp, _, _, _, _ => by simp [climbNext, hp, up, post]
  | ⟨true, a, c, s⟩ :: k, x, fuel + 1, hr, hp, _, _, _, _ => by
    have h1 : h.left a = x := hr.2.2.1
    simp [climbNext, hp, up, post, h1]
  | ⟨false, a, c, s⟩ :: k, x, fuel + 1, hr, hp, hx, hxn, hnd, hf => by
    obtain ⟨h1, h2, h3, h4, h5, h6, h7⟩ := hr
    simp only [pre, post, List.mem_append, List.mem_singleton] at hxn
    have hs : x ≠ s.top := (sib_ne h6 hx (by grind)).symm
    have ha : a ∉ pre k ∧ a ∉ post k ∧ (pre k ++ post k).Nodup := by
      simp only [pre, post, List.nodup_append, List.mem_append, List.mem_singleton] at hnd ⊢; grind
    rw [climbNext, hp, show up (⟨false, a, c, s⟩ :: k) = a from rfl, h3, if_pos ⟨h1, hs⟩]
    exact climbNext_at k a fuel h7 h2 h1 ⟨ha.1, ha.2.1⟩ ha.2.2 (by simp at hf; omega)

theorem climbPrev_at {h : Heap α} : ∀ (k : Ctx) (x : Addr) (fuel : Nat), RepC h k x → h.par x = up k → x ≠ 0 → x ∉ pre k ∧ x ∉ post k → (pre k ++ post k).Nodup → k.length < fuel →
    climbPrev h fuel x = some ((pre k).reverse.headD 0)
  | _, _, 0, _, _, _, _, _, hf => absurd hf (Nat.not_lt_zero _)
  | [], x, fuel + 1, _, hp, _, _, _, _ => by simp [climbPrev, hp, up, pre]
  | ⟨false, a, c, s⟩ :: k, x, fuel + 1, hr, hp, _, _, _, _ => by
    have h1 : h.right a = x := hr.2.2.2.1
    simp [climbPrev, hp, up, pre, h1]
  | ⟨true, a, c, s⟩ :: k, x, fuel + 1, hr, hp, hx, hxn, hnd, hf => by
    obtain ⟨h1, h2, h3, h4, h5, h6, h7⟩ := hr
    simp only [pre, post, List.mem_append, List.mem_cons] at hxn
    have hs : x ≠ s.top := (sib_ne h6 hx (by grind)).symm
    have ha : a ∉ pre k ∧ a ∉ post k ∧ (pre k ++ post k).Nodup := by
      simp only [pre, post, List.nodup_append, List.nodup_cons, List.mem_append, List.mem_cons] at hnd ⊢; grind
    rw [climbPrev, hp, show up (⟨true, a, c, s⟩ :: k) = a from rfl, h4, if_pos ⟨h1, hs⟩]
    exact climbPrev_at k a fuel h7 h2 h1 ⟨ha.1, ha.2.1⟩ ha.2.2 (by simp at hf; omega)

theorem headD_append_left {A B : List Addr} (h : A ≠ []) : (A ++ B).headD 0 = A.headD 0 := by
  cases A with
  | nil => exact absurd rfl h
  | cons a A => rfl

theorem inorder_ne {t : Tree} (h : t ≠ .nil) : t.inorder ≠ [] := by
  cases t with
  | nil => exact absurd rfl h
  | node l a c r => simp [Tree.inorder]

theorem rep_top {h : Heap α} {p : Addr} {t : Tree} (hr : Rep h p t) : t.top ≠ 0 ↔ t ≠ .nil := by
  cases t with
  | nil => simp [Tree.top]
  | node l a c r => simp [Tree.top, hr.1]

theorem next_at {h : Heap α} {k : Ctx} {l r : Tree} {x : Addr} {c : Bool} {fuel : Nat} (hat : At h k (.node l x c r)) (hf : (plug k (.node l x c r)).height ≤ fuel) :
    next h fuel x = some ((r.inorder ++ post k).headD 0) := by
  obtain ⟨hk, ⟨x1, x2, x3, x4, x5, x6, x7⟩, hnd⟩ := hat
  have hlen := length_height k (.node l x c r)
  simp only [Tree.height] at hlen
  unfold next
  rw [if_neg x1, x4]
  by_cases hr : r = .nil
  · subst hr
    rw [if_neg (by simp [Tree.top])]
    simp only [Tree.inorder, List.nodup_append, List.nodup_cons, List.mem_append, List.mem_cons] at hnd
    exact climbNext_at k x fuel hk x2 x1 (by grind) (by rw [List.nodup_append]; grind) (by omega)
  · rw [if_pos ((rep_top x7).2 hr), headD_append_left (inorder_ne hr)]
    exact leftFar_rep r x fuel x7 hr (by omega)

theorem prev_at {h : Heap α} {k : Ctx} {l r : Tree} {x : Addr} {c : Bool} {fuel : Nat} (hat : At h k (.node l x c r)) (hf : (plug k (.node l x c r)).height ≤ fuel) :
    prev h fuel x = some ((pre k ++ l.inorder).reverse.headD 0) := by
  obtain ⟨hk, ⟨x1, x2, x3, x4, x5, x6, x7⟩, hnd⟩ := hat
  have hlen := length_height k (.node l x c r)
  simp only [Tree.height] at hlen
  unfold prev
  rw [if_neg x1, x3, List.reverse_append]
  by_cases hl : l = .nil
  · subst hl
    rw [if_neg (by simp [Tree.top])]
    simp only [Tree.inorder, List.nodup_append, List.nodup_cons, List.mem_append, List.mem_cons] at hnd
    exact climbPrev_at k x fuel hk x2 x1 (by grind) (by rw [List.nodup_append]; grind) (by omega)
  · rw [if_pos ((rep_top x6).2 hl), headD_append_left (by simpa using inorder_ne hl)]
    exact rightFar_rep l x fuel x6 hl (by omega)

/-! ### Pre-order -/

def preB : Ctx → List Addr
  | [] => []
  | ⟨true, _, _, s⟩ :: k => s.preorder ++ preB k
  | ⟨false, _, _, _⟩ :: k => preB k
def preA : Ctx → List Addr
  | [] => []
  | ⟨true, a, _, _⟩ :: k => preA k ++ [a]
  | ⟨false, a, _, s⟩ :: k => preA k ++ a :: s.preorder

theorem preorder_plug : ∀ (k : Ctx) (t : Tree), (plug k t).preorder = preA k ++ t.preorder ++ preB k
  | [], t => by simp [plug, preA, preB]
  | ⟨true, a, c, s⟩ :: k, t => by rw [plug, preorder_plug k]; simp [Tree.preorder, preA, preB]
  | ⟨false, a, c, s⟩ :: k, t => by rw [plug, preorder_plug k]; simp [Tree.preorder, preA, preB]

theorem preorder_perm : ∀ t : Tree, t.preorder.Perm t.inorder
  | .nil => .refl _
  | .node l a c r => by
    simp only [Tree.preorder, Tree.inorder]
    exact (((preorder_perm l).append (preorder_perm r)).cons a).trans List.perm_middle.symm
theorem postorder_perm : ∀ t : Tree, t.postorder.Perm t.inorder
  | .nil => .refl _
  | .node l a c r => by
    simp only [Tree.postorder, Tree.inorder, List.append_assoc]
    refine (postorder_perm l).append ?_
    exact ((postorder_perm r).append_right [a]).trans (List.perm_append_comm)

theorem preorder_head {t : Tree} : t.preorder.headD 0 = t.top := by cases t <;> rfl
theorem preorder_ne {t : Tree} (h : t ≠ .nil) : t.preorder ≠ [] := by
  cases t with
  | nil => exact absurd rfl h
  | node l a c r => simp [Tree.preorder]

theorem climbPre_at {h : Heap α} : ∀ (k : Ctx) (x : Addr) (fuel : Nat), RepC h k x → h.par x = up k → x ≠ 0 → x ∉ pre k ∧ x ∉ post k → (pre k ++ post k).Nodup → k.length < fuel →
    climbPre h fuel x = some ((preB k).headD 0)
  | _, _, 0, _, _, _, _, _, hf => absurd hf (Nat.not_lt_zero _)
  | [], x, fuel + 1, _, hp, _, _, _, _ => by simp [climbPre, hp, up, preB]
  | ⟨true, a, c, s⟩ :: k, x, fuel + 1, hr, hp, hx, hxn, hnd, hf => by
    obtain ⟨h1, h2, h3, h4, h5, h6, h7⟩ := hr
    simp only [pre, post, List.mem_append, List.mem_cons] at hxn
    have hs : x ≠ s.top := (sib_ne h6 hx (by grind)).symm
    have ha : a ∉ pre k ∧ a ∉ post k ∧ (pre k ++ post k).Nodup := by
      simp only [pre, post, List.nodup_append, List.nodup_cons, List.mem_append, List.mem_cons] at hnd ⊢; grind
    rw [climbPre, hp, show up (⟨true, a, c, s⟩ :: k) = a from rfl, preB]
    simp only [h4]
    by_cases hsn : s = .nil
    · subst hsn
      rw [if_pos ⟨h1, Or.inl rfl⟩]
      exact climbPre_at k a fuel h7 h2 h1 ⟨ha.1, ha.2.1⟩ ha.2.2 (by simp at hf; omega)
    · have := (rep_top h6).2 hsn
      rw [if_neg (fun e => e.2.elim this hs), if_pos h1, headD_append_left (preorder_ne hsn), preorder_head]
  | ⟨false, a, c, s⟩ :: k, x, fuel + 1, hr, hp, hx, hxn, hnd, hf => by
    obtain ⟨h1, h2, h3, h4, h5, h6, h7⟩ := hr
    have ha : a ∉ pre k ∧ a ∉ post k ∧ (pre k ++ post k).Nodup := by
      simp only [pre, post, List.nodup_append, List.mem_append, List.mem_singleton] at hnd ⊢; grind
    rw [climbPre, hp, show up (⟨false, a, c, s⟩ :: k) = a from rfl, preB]
    simp only [h4]
    rw [if_pos ⟨h1, Or.inr trivial⟩]
    exact climbPre_at k a fuel h7 h2 h1 ⟨ha.1, ha.2.1⟩ ha.2.2 (by simp at hf; omega)

theorem preNext_at {h : Heap α} {k : Ctx} {l r : Tree} {x : Addr} {c : Bool} {fuel : Nat} (hat : At h k (.node l x c r)) (hf : (plug k (.node l x c r)).height ≤ fuel) :
    preNext h fuel x = some ((l.preorder ++ r.preorder ++ preB k).headD 0) := by
  obtain ⟨hk, ⟨x1, x2, x3, x4, x5, x6, x7⟩, hnd⟩ := hat
  have hlen := length_height k (.node l x c r)
  simp only [Tree.height] at hlen
  unfold preNext
  rw [if_neg x1, x3, x4]
  by_cases hl : l = .nil
  · subst hl
    rw [if_neg (by simp [Tree.top])]
    by_cases hr : r = .nil
    · subst hr
      rw [if_neg (by simp [Tree.top])]
      simp only [Tree.inorder, List.nodup_append, List.nodup_cons, List.mem_append, List.mem_cons] at hnd
      exact climbPre_at k x fuel hk x2 x1 (by grind) (by rw [List.nodup_append]; grind) (by omega)
    · rw [if_pos ((rep_top x7).2 hr), List.append_assoc]
      rw [show Tree.nil.preorder = [] from rfl, List.nil_append, headD_append_left (preorder_ne hr), preorder_head]
  · rw [if_pos ((rep_top x6).2 hl), List.append_assoc, headD_append_left (preorder_ne hl), preorder_head]

/-! ### Post-order -/

def postB : Ctx → List Addr
  | [] => []
  | ⟨true, a, _, s⟩ :: k => s.postorder ++ a :: postB k
  | ⟨false, a, _, _⟩ :: k => a :: postB k
def postA : Ctx → List Addr
  | [] => []
  | ⟨true, _, _, _⟩ :: k => postA k
  | ⟨false, _, _, s⟩ :: k => postA k ++ s.postorder

theorem postorder_plug : ∀ (k : Ctx) (t : Tree), (plug k t).postorder = postA k ++ t.postorder ++ postB k
  | [], t => by simp [plug, postA, postB]
  | ⟨true, a, c, s⟩ :: k, t => by rw [plug, postorder_plug k]; simp [Tree.postorder, postA, postB]
  | ⟨false, a, c, s⟩ :: k, t => by rw [plug, postorder_plug k]; simp [Tree.postorder, postA, postB]

theorem postorder_ne {t : Tree} (h : t ≠ .nil) : t.postorder ≠ [] := by
  cases t with
  | nil => exact absurd rfl h
  | node l a c r => simp [Tree.postorder]

theorem leftDeep_rep {h : Heap α} : ∀ (t : Tree) (p : Addr) (fuel : Nat), Rep h p t → t ≠ .nil → t.height ≤ fuel → leftDeep h fuel t.top = some (t.postorder.headD 0)
  | .nil, _, _, _, hn, _ => absurd rfl hn
  | .node _ _ _ _, _, 0, _, _, hf => by simp [Tree.height] at hf
  | .node l a c r, p, fuel + 1, hr, _, hf => by
    obtain ⟨h1, h2, h3, h4, h5, h6, h7⟩ := hr
    simp only [Tree.height] at hf
    rw [leftDeep, show (Tree.node l a c r).top = a from rfl, if_neg h1, h3, h4]
    rw [show (Tree.node l a c r).postorder = l.postorder ++ r.postorder ++ [a] from rfl]
    by_cases hl : l = .nil
    · subst hl
      rw [if_neg (by simp [Tree.top])]
      by_cases hr : r = .nil
      · subst hr
        simp [Tree.top, Tree.postorder]
      · rw [if_pos ((rep_top h7).2 hr), leftDeep_rep r a fuel h7 hr (by omega)]
        rw [show Tree.nil.postorder = [] from rfl, List.nil_append, headD_append_left (postorder_ne hr)]
    · rw [if_pos ((rep_top h6).2 hl), leftDeep_rep l a fuel h6 hl (by omega), List.append_assoc, headD_append_left (postorder_ne hl)]

theorem postNext_at {h : Heap α} {k : Ctx} {l r : Tree} {x : Addr} {c : Bool} {fuel : Nat} (hat : At h k (.node l x c r)) (hf : (plug k (.node l x c r)).height ≤ fuel) :
    postNext h fuel x = some ((postB k).headD 0) := by
  obtain ⟨hk, ⟨x1, x2, x3, x4, x5, x6, x7⟩, hnd⟩ := hat
  unfold postNext
  rw [if_neg x1, x2]
  rcases k with _ | ⟨⟨d, a, c2, s⟩, k⟩
  · simp [up, postB]
  · cases d
    · obtain ⟨h1, h2, h3, h4, h5, h6, h7⟩ := hk
      have hup : up (⟨false, a, c2, s⟩ :: k) = a := rfl
      rw [hup]
      have : x ≠ s.top := (sib_ne h6 x1 (by
        simp only [pre, post, Tree.inorder, List.nodup_append, List.nodup_cons, List.mem_append, List.mem_cons, List.mem_singleton] at hnd; grind)).symm
      rw [if_neg (by rw [h3]; exact fun e => this e.2.1)]
      rfl
    · obtain ⟨h1, h2, h3, h4, h5, h6, h7⟩ := hk
      have h3 : h.left a = x := h3
      have hup : up (⟨true, a, c2, s⟩ :: k) = a := rfl
      rw [hup]
      simp only
      rw [h3, h4, postB]
      by_cases hs : s = .nil
      · subst hs
        rw [if_neg (by simp [Tree.top])]
        rfl
      · rw [if_pos ⟨h1, rfl, (rep_top h6).2 hs⟩, headD_append_left (postorder_ne hs)]
        have := length_height k (.node (.node l x c r) a c2 s)
        rw [plug] at hf
        simp only [Tree.height] at this
        exact leftDeep_rep s a fuel h6 hs (by omega)

/-! ### Whole walks -/

theorem holds_ne_zero {h : Heap α} {t : Tree} (hh : Holds h t) : ∀ a, a ∈ t.inorder → a ≠ 0 := hh.2.1.ne_zero

theorem walk_next {h : Heap α} {t : Tree} {fuel fuel2 : Nat} (hh : Holds h t) (hf : t.height ≤ fuel) (hf2 : t.size < fuel2) :
    ∃ p, first h fuel = some p ∧ walk (next h fuel) fuel2 p = some t.inorder := by
  refine ⟨t.inorder.headD 0, ?_, ?_⟩
  · unfold first
    by_cases hr : h.root = 0
    · obtain rfl := holds_nil hh hr
      rw [if_pos hr]; rfl
    · rw [if_neg hr, hh.1]
      exact leftFar_rep t 0 fuel hh.2.1 (fun e => hr (by rw [hh.1, e]; rfl)) hf
  · refine walk_all (holds_ne_zero hh) ?_ t.inorder [] fuel2 rfl hf2
    intro A y B e
    obtain ⟨k, l, c, r, rfl⟩ := exists_ctx t (x := y) (by rw [e]; simp)
    have e2 : (plug k (.node l y c r)).inorder = (pre k ++ l.inorder) ++ y :: (r.inorder ++ post k) := by simp [inorder_plug, Tree.inorder]
    have := (nodup_split (e ▸ hh.2.2) (e.symm.trans e2)).2
    rw [next_at (at_iff.2 hh) hf, this]

theorem walk_prev {h : Heap α} {t : Tree} {fuel fuel2 : Nat} (hh : Holds h t) (hf : t.height ≤ fuel) (hf2 : t.size < fuel2) :
    ∃ p, last h fuel = some p ∧ walk (prev h fuel) fuel2 p = some t.inorder.reverse := by
  refine ⟨t.inorder.reverse.headD 0, ?_, ?_⟩
  · unfold last
    by_cases hr : h.root = 0
    · obtain rfl := holds_nil hh hr
      rw [if_pos hr]; rfl
    · rw [if_neg hr, hh.1]
      exact rightFar_rep t 0 fuel hh.2.1 (fun e => hr (by rw [hh.1, e]; rfl)) hf
  · refine walk_all (fun a ha => holds_ne_zero hh a (List.mem_reverse.1 ha)) ?_ t.inorder.reverse [] fuel2 rfl (by simpa [Tree.size] using hf2)
    intro A y B e
    obtain ⟨k, l, c, r, rfl⟩ := exists_ctx t (x := y) (by rw [← List.mem_reverse, e]; simp)
    have e2 : (plug k (.node l y c r)).inorder.reverse = (r.inorder ++ post k).reverse ++ y :: (pre k ++ l.inorder).reverse := by simp [inorder_plug, Tree.inorder]
    have hnr : (plug k (.node l y c r)).inorder.reverse.Nodup := (List.reverse_perm _).nodup_iff.2 hh.2.2
    have := (nodup_split (e ▸ hnr) (e.symm.trans e2)).2
    rw [prev_at (at_iff.2 hh) hf, this]

theorem walk_pre {h : Heap α} {t : Tree} {fuel fuel2 : Nat} (hh : Holds h t) (hf : t.height ≤ fuel) (hf2 : t.size < fuel2) :
    walk (preNext h fuel) fuel2 (preFirst h) = some t.preorder := by
  rw [preFirst, hh.1, ← preorder_head]
  refine walk_all (fun a ha => holds_ne_zero hh a ((preorder_perm t).mem_iff.1 ha)) ?_ t.preorder [] fuel2 rfl (by rw [(preorder_perm t).length_eq]; exact hf2)
  intro A y B e
  obtain ⟨k, l, c, r, rfl⟩ := exists_ctx t (x := y) (by rw [← (preorder_perm t).mem_iff, e]; simp)
  have e2 : (plug k (.node l y c r)).preorder = preA k ++ y :: (l.preorder ++ r.preorder ++ preB k) := by simp [preorder_plug, Tree.preorder]
  have hn : (plug k (.node l y c r)).preorder.Nodup := (preorder_perm _).nodup_iff.2 hh.2.2
  have := (nodup_split (e ▸ hn) (e.symm.trans e2)).2
  rw [preNext_at (at_iff.2 hh) hf, this]

theorem walk_post {h : Heap α} {t : Tree} {fuel fuel2 : Nat} (hh : Holds h t) (hf : t.height ≤ fuel) (hf2 : t.size < fuel2) :
    ∃ p, postFirst h fuel = some p ∧ walk (postNext h fuel) fuel2 p = some t.postorder := by
  refine ⟨t.postorder.headD 0, ?_, ?_⟩
  · unfold postFirst
    by_cases hr : h.root = 0
    · obtain rfl := holds_nil hh hr
      rw [if_pos hr]; rfl
    · rw [if_neg hr, hh.1]
      exact leftDeep_rep t 0 fuel hh.2.1 (fun e => hr (by rw [hh.1, e]; rfl)) hf
  · refine walk_all (fun a ha => holds_ne_zero hh a ((postorder_perm t).mem_iff.1 ha)) ?_ t.postorder [] fuel2 rfl (by rw [(postorder_perm t).length_eq]; exact hf2)
    intro A y B e
    obtain ⟨k, l, c, r, rfl⟩ := exists_ctx t (x := y) (by rw [← (postorder_perm t).mem_iff, e]; simp)
    have e2 : (plug k (.node l y c r)).postorder = (postA k ++ (l.postorder ++ r.postorder)) ++ y :: postB k := by simp [postorder_plug, Tree.postorder]
    have hn : (plug k (.node l y c r)).postorder.Nodup := (postorder_perm _).nodup_iff.2 hh.2.2
    have := (nodup_split (e ▸ hn) (e.symm.trans e2)).2
    rw [postNext_at (at_iff.2 hh) hf, this]

end Bfdev.Rbtree

import Verif.Rbtree.Props
/-!
The red-black tree with callbacks that answer anything (C107): the `k`-th call of the callback is `c k`. The models are those of
`Rbtree/Model.lean` with the number of calls made so far carried along; the `_plain` theorems show that nothing else changes.
-/
namespace Bfdev.Rbtree
variable {α : Type}

/-- `bfdev_rb_find` with the calls counted, rbtree.c:544-564. -/
def countFind (h : Heap α) (f : Nat → Addr → Int) : Nat → Nat → Addr → Option (Addr × Nat)
  | 0, _, _ => none
  | fuel + 1, k, node =>
    if node = 0 then some (0, k)
    else
      let retval := f k node
      if retval = 0 then some (node, k + 1)
      else if retval > 0 then countFind h f fuel (k + 1) (h.left node)
      else countFind h f fuel (k + 1) (h.right node)

/-- `parentLoop` with the calls counted, rbtree.c:620-632. -/
def countParentLoop (h : Heap α) (c : Nat → Addr → Int) : Nat → Nat → Link → Bool → Option (Option (Link × Addr × Bool) × Nat)
  | 0, _, _, _ => none
  | fuel + 1, k, link, leftmost =>
    let cur := link.get h
    let retval := c k cur
    if retval = 0 then some (none, k + 1)
    else if retval < 0 then
      if h.left cur ≠ 0 then countParentLoop h c fuel (k + 1) (.left cur) leftmost else some (some (.left cur, cur, leftmost), k + 1)
    else
      if h.right cur ≠ 0 then countParentLoop h c fuel (k + 1) (.right cur) false else some (some (.right cur, cur, false), k + 1)

/-- `bfdev_rb_parent` with the calls counted, rbtree.c:603-639. -/
def countParent (h : Heap α) (c : Nat → Addr → Int) (fuel : Nat) : Option (Option (Link × Addr × Bool) × Nat) :=
  if h.root = 0 then some (some (.root, 0, true), 0) else countParentLoop h c fuel 0 .root true

/-- `bfdev_rb_insert_augmented` and `bfdev_rb_insert` with the calls counted, rbtree.h:653-665, 713-726. -/
def countInsert (cb : Cb α) (fuel : Nat) (h : Heap α) (node : Addr) (c : Nat → Addr → Int) : Option (Heap α × Bool × Nat) :=
  match countParent h c fuel with
  | none => none
  | some (none, k) => some (h, false, k)
  | some (some (l, p, _), k) => (insertNode cb fuel h p l node).map (·, true, k)

/-! ### The same functions when the answers depend on the nodes only -/

theorem countFind_plain (h : Heap α) (f : Addr → Int) (fuel k : Nat) (node : Addr) :
    (countFind h (fun _ => f) fuel k node).map (·.1) = find h f fuel node := by
  induction fuel generalizing k node with
  | zero => rfl
  | succ fuel ih =>
    rw [countFind, find]
    dsimp only
    by_cases h1 : node = 0
    · rw [if_pos h1, if_pos h1]; rfl
    · rw [if_neg h1, if_neg h1]
      by_cases h2 : f node = 0
      · rw [if_pos h2, if_pos h2]; rfl
      · rw [if_neg h2, if_neg h2]
        by_cases h3 : f node > 0
        · rw [if_pos h3, if_pos h3]; exact ih _ _
        · rw [if_neg h3, if_neg h3]; exact ih _ _

theorem countParentLoop_plain (h : Heap α) (c : Addr → Int) (fuel k : Nat) (link : Link) (lm : Bool) :
    (countParentLoop h (fun _ => c) fuel k link lm).map (·.1) = parentLoop h c fuel link lm := by
  induction fuel generalizing k link lm with
  | zero => rfl
  | succ fuel ih =>
    rw [countParentLoop, parentLoop]
    by_cases h2 : c (link.get h) = 0
    · rw [if_pos h2, if_pos h2]; rfl
    · rw [if_neg h2, if_neg h2]
      by_cases h3 : c (link.get h) < 0
      · rw [if_pos h3, if_pos h3]
        by_cases h4 : h.left (link.get h) ≠ 0
        · rw [if_pos h4, if_pos h4]; exact ih _ _ _
        · rw [if_neg h4, if_neg h4]; rfl
      · rw [if_neg h3, if_neg h3]
        by_cases h4 : h.right (link.get h) ≠ 0
        · rw [if_pos h4, if_pos h4]; exact ih _ _ _
        · rw [if_neg h4, if_neg h4]; rfl

/-- Counting the calls of an insertion changes nothing else. -/
theorem countInsert_plain (cb : Cb α) (fuel : Nat) (h : Heap α) (node : Addr) (c : Addr → Int) :
    (countInsert cb fuel h node (fun _ => c)).map (fun r => (r.1, r.2.1)) = insert cb fuel h node c := by
  have e : (countParent h (fun _ => c) fuel).map (·.1) = parent h c fuel := by
    unfold countParent parent
    by_cases hr : h.root = 0
    · rw [if_pos hr, if_pos hr]; rfl
    · rw [if_neg hr, if_neg hr]; exact countParentLoop_plain h c fuel 0 _ _
  unfold countInsert insert
  rw [← e]
  cases countParent h (fun _ => c) fuel with
  | none => rfl
  | some r =>
    obtain ⟨o, k⟩ := r
    cases o with
    | none => rfl
    | some q =>
      obtain ⟨l, p, lm⟩ := q
      simp only [Option.map_some]
      cases insertNode cb fuel h p l node <;> rfl

/-! ### Any answers -/

theorem countFind_rep {h : Heap α} (f : Nat → Addr → Int) : ∀ (t : Tree) (p : Addr) (fuel k : Nat), Rep h p t → t.height < fuel →
    ∃ r k', countFind h f fuel k t.top = some (r, k') ∧ k' ≤ k + t.height ∧ k ≤ k' ∧
      (r ≠ 0 → r ∈ t.inorder ∧ k < k' ∧ f (k' - 1) r = 0)
  | _, _, 0, _, _, hf => absurd hf (Nat.not_lt_zero _)
  | .nil, _, fuel + 1, k, _, _ => ⟨0, k, by simp [countFind, Tree.top], by omega, Nat.le_refl _, by simp⟩
  | .node l x c r, p, fuel + 1, k, hr, hf => by
    obtain ⟨x1, x2, x3, x4, x5, x6, x7⟩ := hr
    simp only [Tree.height] at hf ⊢
    rw [countFind, show (Tree.node l x c r).top = x from rfl, if_neg x1]
    dsimp only
    by_cases hz : f k x = 0
    · rw [if_pos hz]
      exact ⟨x, k + 1, rfl, by omega, by omega, fun _ => ⟨by simp [Tree.inorder], by omega, hz⟩⟩
    · rw [if_neg hz]
      by_cases hp : f k x > 0
      · rw [if_pos hp, x3]
        obtain ⟨q, k', a1, a2, a3, a4⟩ := countFind_rep f l x fuel (k + 1) x6 (by omega)
        exact ⟨q, k', a1, by omega, by omega, fun hq => ⟨by simp [Tree.inorder, (a4 hq).1], by omega, (a4 hq).2.2⟩⟩
      · rw [if_neg hp, x4]
        obtain ⟨q, k', a1, a2, a3, a4⟩ := countFind_rep f r x fuel (k + 1) x7 (by omega)
        exact ⟨q, k', a1, by omega, by omega, fun hq => ⟨by simp [Tree.inorder, (a4 hq).1], by omega, (a4 hq).2.2⟩⟩

theorem countParentLoop_at {h : Heap α} (c : Nat → Addr → Int) : ∀ (fuel n : Nat) (k : Ctx) (l r : Tree) (x : Addr) (cx lm : Bool),
    At h k (.node l x cx r) → (Tree.node l x cx r).height ≤ fuel →
    ∃ res n', countParentLoop h c fuel n (linkOf k) lm = some (res, n') ∧ n < n' ∧ n' ≤ n + (Tree.node l x cx r).height ∧
      (res = none → ∃ a ∈ (Tree.node l x cx r).inorder, c (n' - 1) a = 0) ∧
      ∀ link p lm', res = some (link, p, lm') → ∃ k', plug k' .nil = plug k (.node l x cx r) ∧ link = linkOf k' ∧ p = up k'
  | 0, _, _, _, _, _, _, _, _, hf => by simp [Tree.height] at hf
  | fuel + 1, n, k, l, r, x, cx, lm, hat, hf => by
    have hat0 := hat
    obtain ⟨hk, ⟨x1, x2, x3, x4, x5, x6, x7⟩, hnd⟩ := hat
    simp only [Tree.height] at hf ⊢
    have hget := linkOf_get hk
    simp only [Tree.top] at hget
    rw [countParentLoop]
    simp only [hget]
    by_cases hz : c n x = 0
    · rw [if_pos hz]
      exact ⟨none, n + 1, rfl, by omega, by omega, fun _ => ⟨x, by simp [Tree.inorder], hz⟩, by simp⟩
    · rw [if_neg hz]
      by_cases hn : c n x < 0
      · rw [if_pos hn, x3]
        have hA : At h (⟨true, x, cx, r⟩ :: k) l := at_down_left.1 hat0
        cases l with
        | nil =>
          rw [if_neg (by simp [Tree.top])]
          refine ⟨_, n + 1, rfl, by omega, by omega, by simp, fun link p lm' e => ⟨⟨true, x, cx, r⟩ :: k, rfl, ?_⟩⟩
          injection e with e; injection e with e1 e; injection e with e2 _
          exact ⟨e1.symm, e2.symm⟩
        | node l2 a2 c2 r2 =>
          rw [if_pos (show (Tree.node l2 a2 c2 r2).top ≠ 0 from x6.1)]
          obtain ⟨res, n', b1, b2, b3, b4, b5⟩ := countParentLoop_at c fuel (n + 1) (⟨true, x, cx, r⟩ :: k) l2 r2 a2 c2 lm hA (by omega)
          refine ⟨res, n', b1, by omega, by omega, fun e => ?_, b5⟩
          obtain ⟨a, ha, ha'⟩ := b4 e
          exact ⟨a, by rw [Tree.inorder]; exact List.mem_append_left _ ha, ha'⟩
      · rw [if_neg hn, x4]
        have hA : At h (⟨false, x, cx, l⟩ :: k) r := at_down_right.1 hat0
        cases r with
        | nil =>
          rw [if_neg (by simp [Tree.top])]
          refine ⟨_, n + 1, rfl, by omega, by omega, by simp, fun link p lm' e => ⟨⟨false, x, cx, l⟩ :: k, rfl, ?_⟩⟩
          injection e with e; injection e with e1 e; injection e with e2 _
          exact ⟨e1.symm, e2.symm⟩
        | node l2 a2 c2 r2 =>
          rw [if_pos (show (Tree.node l2 a2 c2 r2).top ≠ 0 from x7.1)]
          obtain ⟨res, n', b1, b2, b3, b4, b5⟩ := countParentLoop_at c fuel (n + 1) (⟨false, x, cx, l⟩ :: k) l2 r2 a2 c2 false hA (by omega)
          refine ⟨res, n', b1, by omega, by omega, fun e => ?_, b5⟩
          obtain ⟨a, ha, ha'⟩ := b4 e
          exact ⟨a, by rw [Tree.inorder]; exact List.mem_append_right _ (List.mem_cons_of_mem _ ha), ha'⟩

/-- **C107**, searching a red-black tree of `n` nodes: whatever the callback answers, call by call, the search ends, asks about nodes
of the tree only, at most `2 · log2 (n + 1)` times, and returns a node only if the last answer, about that node, was 0. -/
theorem find_any_answers {h : Heap α} {t : Tree} (hh : Holds h t) (hrb : RedBlack t) (f : Nat → Addr → Int) {fuel : Nat} (hf : t.height < fuel) :
    ∃ r calls, countFind h f fuel 0 h.root = some (r, calls) ∧ calls ≤ 2 * Nat.log2 (t.size + 1) ∧
      (r ≠ 0 → r ∈ t.inorder ∧ 0 < calls ∧ f (calls - 1) r = 0) := by
  obtain ⟨r, k, a1, a2, a3, a4⟩ := countFind_rep f t 0 fuel 0 hh.2.1 hf
  have hb := height_bound hrb
  rw [hh.1]
  exact ⟨r, k, a1, by omega, a4⟩

/-- **C107**, inserting into a red-black tree of `n` nodes: whatever the comparison answers, call by call, the insertion ends after at
most `2 · log2 (n + 1)` calls. It refuses, and changes nothing, only after an answer 0 about a node of the tree; otherwise the new node
is somewhere in the order of the others, which keep theirs, the red-black rules hold, and no node outside the tree was touched. -/
theorem insert_any_answers (cb : Cb α) {h : Heap α} {t : Tree} (hh : Holds h t) (hrb : RedBlack t) {x : Addr} (hx : x ≠ 0) (hxt : x ∉ t.inorder)
    (c : Nat → Addr → Int) {fuel : Nat} (hf : t.height < fuel) :
    ∃ h' ok calls, countInsert cb fuel h x c = some (h', ok, calls) ∧ calls ≤ 2 * Nat.log2 (t.size + 1) ∧
      (ok = false → h' = h ∧ 0 < calls ∧ ∃ a ∈ t.inorder, c (calls - 1) a = 0) ∧
      (ok = true → ∃ A B t', t.inorder = A ++ B ∧ Holds h' t' ∧ t'.inorder = A ++ x :: B ∧ RedBlack t' ∧ Others h h' (A ++ x :: B)) := by
  have key : ∀ (k : Ctx), plug k .nil = t → ∃ h' t', insertNode cb fuel h (up k) (linkOf k) x = some h' ∧ t.inorder = pre k ++ post k ∧ Holds h' t' ∧
      t'.inorder = pre k ++ x :: post k ∧ RedBlack t' ∧ Others h h' (pre k ++ x :: post k) := by
    rintro k rfl
    obtain ⟨h', t', e, q1, q2, q3, q4⟩ := insertNode_at cb hh hrb hx hxt hf
    exact ⟨h', t', e, by simp [inorder_plug, Tree.inorder], q1, q2, q3, q4⟩
  have hb := height_bound hrb
  unfold countInsert countParent
  by_cases hr : h.root = 0
  · rw [if_pos hr]
    obtain rfl := holds_nil hh hr
    obtain ⟨h', t', e, q⟩ := key [] rfl
    refine ⟨h', true, 0, ?_, Nat.zero_le _, by simp, fun _ => ⟨_, _, t', q⟩⟩
    rw [show (0 : Addr) = up [] from rfl, show Link.root = linkOf [] from rfl]
    simp only [e, Option.map_some]
  · rw [if_neg hr]
    obtain ⟨l, a, cx, r, rfl⟩ := holds_node hh hr
    obtain ⟨res, n', b1, b2, b3, b4, b5⟩ := countParentLoop_at c fuel 0 [] l r a cx true (at_root hh) (by omega)
    rw [show Link.root = linkOf [] from rfl, b1]
    cases res with
    | none =>
      exact ⟨h, false, n', rfl, by omega, fun _ => ⟨rfl, b2, b4 rfl⟩, by simp⟩
    | some q =>
      obtain ⟨link, p, lm⟩ := q
      obtain ⟨k, g1, rfl, rfl⟩ := b5 link p lm rfl
      obtain ⟨h', t', e, q⟩ := key k g1
      refine ⟨h', true, n', ?_, by omega, by simp, fun _ => ⟨_, _, t', q⟩⟩
      simp only [e, Option.map_some]

/-- What a history of insertions, each with its own answers, and deletions of nodes in the tree can lead to: the memory, and the nodes
that were let in and not deleted. -/
inductive Reached (cb : Cb α) : Heap α → List Addr → Prop
  | empty {h} : h.root = 0 → Reached cb h []
  | insert {h h' L x c fuel calls} : Reached cb h L → x ≠ 0 → x ∉ L → countInsert cb fuel h x c = some (h', true, calls) → L.length < fuel →
      Reached cb h' (x :: L)
  | refused {h h' L x c fuel calls} : Reached cb h L → x ≠ 0 → x ∉ L → countInsert cb fuel h x c = some (h', false, calls) → L.length < fuel →
      Reached cb h' L
  | delete {h h' L x fuel} : Reached cb h L → x ∈ L → Rbtree.delete cb fuel h x = some h' → L.length < fuel → Reached cb h' (L.erase x)

theorem height_le_size : ∀ t : Tree, t.height ≤ t.inorder.length
  | .nil => Nat.zero_le _
  | .node l a c r => by
    have h1 := height_le_size l
    have h2 := height_le_size r
    simp only [Tree.height, Tree.inorder, List.length_append, List.length_cons]
    omega

/-- **C107**, histories: after any insertions and deletions, whatever the comparisons answered, the nodes let in and not deleted form a
red-black tree. -/
theorem history_any_answers {cb : Cb α} {h : Heap α} {L : List Addr} (hr : Reached cb h L) :
    ∃ t, Holds h t ∧ RedBlack t ∧ t.inorder.Perm L := by
  induction hr with
  | empty h0 =>
    exact ⟨.nil, ⟨h0, trivial, List.nodup_nil⟩, ⟨rfl, 0, rfl⟩, .refl _⟩
  | insert _ hx hxL e hf ih =>
    obtain ⟨t, hh, hrb, hp⟩ := ih
    have hht := height_le_size t
    have hl := hp.length_eq
    obtain ⟨h1, ok, k1, a1, _, _, a3⟩ := insert_any_answers cb hh hrb hx (fun hm => hxL (hp.mem_iff.1 hm)) _ (Nat.lt_of_le_of_lt hht (hl ▸ hf))
    rw [e] at a1
    injection a1 with a1; injection a1 with a1 a2; injection a2 with a2 _
    subst a1
    obtain ⟨A, B, t', q1, q2, q3, q4, _⟩ := a3 a2.symm
    refine ⟨t', q2, q4, ?_⟩
    rw [q3]
    refine List.perm_middle.trans (List.Perm.cons _ ?_)
    rw [← q1]; exact hp
  | refused _ hx hxL e hf ih =>
    obtain ⟨t, hh, hrb, hp⟩ := ih
    have hht := height_le_size t
    have hl := hp.length_eq
    obtain ⟨h1, ok, k1, a1, _, a2', _⟩ := insert_any_answers cb hh hrb hx (fun hm => hxL (hp.mem_iff.1 hm)) _ (Nat.lt_of_le_of_lt hht (hl ▸ hf))
    rw [e] at a1
    injection a1 with a1; injection a1 with a1 a2; injection a2 with a2 _
    rw [a1, (a2' a2.symm).1]
    exact ⟨t, hh, hrb, hp⟩
  | delete _ hx e hf ih =>
    obtain ⟨t, hh, hrb, hp⟩ := ih
    have hht := height_le_size t
    have hl := hp.length_eq
    obtain ⟨h', t', a1, a2, a3, a4, _⟩ := delete_correct cb hh hrb (hp.mem_iff.2 hx) (Nat.le_of_lt (Nat.lt_of_le_of_lt hht (hl ▸ hf)))
    rw [e] at a1
    injection a1 with a1
    rw [a1]
    exact ⟨t', a2, a3, by rw [a4]; exact hp.erase _⟩

/-- Three insertions with contradictory answers: all let in, in an order nobody asked for. -/
example : ((countInsert Cb.dummy 9 exEmpty 1 (fun _ _ => 1)).bind fun r => (countInsert Cb.dummy 9 r.1 2 (fun _ _ => 1)).bind fun r =>
      (countInsert Cb.dummy 9 r.1 3 (fun k _ => if k = 0 then -1 else 1)).bind fun r => (countInsert Cb.dummy 9 r.1 4 (fun k _ => if k = 0 then 1 else 0)).bind fun q =>
        ((first q.1 9).bind (walk (next q.1 9) 9)).map (fun w => (w, r.2, q.2))) =
    some ([3, 1, 2], (true, 1), (false, 2)) := by decide +kernel

end Bfdev.Rbtree

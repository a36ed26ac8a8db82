import Verif.Rbtree.Iter
/-!
C12-C15: red-black insertion, deletion, lookup, iteration.
-/
set_option linter.unusedSimpArgs false
namespace Bfdev.Rbtree
variable {α : Type}

theorem Order.zero {cmp : Addr → Addr → Int} (o : Order cmp) (a b : Addr) : cmp a b = 0 ↔ cmp b a = 0 := by
  have h1 := o.flip a b
  have h2 := o.flip b a
  omega

/-- Comparing a node with the nodes of an ascending sequence fits their order. -/
theorem Order.fits {cmp : Addr → Addr → Int} (o : Order cmp) {L : List Addr} (hL : Ascending cmp L) (x : Addr) : Fits (fun a => - cmp x a) L := by
  refine List.Pairwise.imp ?_ hL
  intro a b hab
  simp only
  constructor
  · intro h1
    have h1 : cmp x a ≤ 0 := by omega
    have h2 := o.trans x a b h1 (by omega)
    by_cases h3 : cmp x b = 0
    · have h4 := (o.zero x b).1 h3
      have h5 := o.trans a b x (by omega) (by omega)
      have h6 := o.flip x a
      omega
    · omega
  · intro h1
    have h1 : 0 < cmp x b := by omega
    by_cases h2 : cmp x a ≤ 0
    · have := o.trans x a b h2 (by omega)
      omega
    · omega

theorem filter_split {A B : List Addr} {p q : Addr → Bool} (h1 : ∀ a, a ∈ A → p a = true ∧ q a = false) (h2 : ∀ a, a ∈ B → p a = false ∧ q a = true) :
    (A ++ B).filter p = A ∧ (A ++ B).filter q = B := by
  rw [List.filter_append, List.filter_append]
  rw [List.filter_eq_self.2 (fun a ha => (h1 a ha).1), List.filter_eq_nil_iff.2 (fun a ha => by simp [(h2 a ha).1])]
  rw [List.filter_eq_nil_iff.2 (fun a ha => by simp [(h1 a ha).2]), List.filter_eq_self.2 (fun a ha => (h2 a ha).2)]
  simp

/-- C12. Inserting a node into an ordered red-black tree: if an equal node is there the answer is `false` and nothing changes. Otherwise the answer
is `true`, the node stands between the smaller and the greater ones, the rules hold again, and no node outside the tree was touched. The
number of loop iterations is bounded by the height. -/
theorem insert_correct (cb : Cb α) {cmp : Addr → Addr → Int} (o : Order cmp) {h : Heap α} {t : Tree} {x : Addr} {fuel : Nat}
    (hh : Holds h t) (hrb : RedBlack t) (hs : Ascending cmp t.inorder) (hx : x ≠ 0) (hxt : x ∉ t.inorder) (hf : t.height < fuel) :
    (t.inorder.any (fun a => cmp x a == 0) = true → insert cb fuel h x (cmp x) = some (h, false)) ∧
    (t.inorder.any (fun a => cmp x a == 0) = false → ∃ h' t', insert cb fuel h x (cmp x) = some (h', true) ∧ Holds h' t' ∧ RedBlack t' ∧
      t'.inorder = t.inorder.filter (fun a => 0 < cmp x a) ++ x :: t.inorder.filter (fun a => cmp x a < 0) ∧
      Ascending cmp t'.inorder ∧ Others h h' t'.inorder) := by
  rcases insert_holds cb (c := cmp x) hh hrb (o.fits hs x) hx hxt hf with ⟨e, a, ha, hz⟩ | ⟨h', A, B, t', e1, h1, h2, e2, q1, q2, q3, q4⟩
  · refine ⟨fun _ => e, fun hn => ?_⟩
    simp only [List.any_eq_false, beq_iff_eq] at hn
    exact absurd hz (hn a ha)
  · refine ⟨fun hy => ?_, fun _ => ⟨h', t', e2, q1, q3, ?_, ?_, by rw [q2]; exact q4⟩⟩
    · exfalso
      simp only [List.any_eq_true, beq_iff_eq, e1, List.mem_append] at hy
      obtain ⟨a, ha | ha, hz⟩ := hy
      · have := h1 a ha; omega
      · have := h2 a ha; omega
    · obtain ⟨f1, f2⟩ := filter_split (A := A) (B := B) (p := fun a => decide (0 < cmp x a)) (q := fun a => decide (cmp x a < 0))
        (fun a ha => by have := h1 a ha; simp; omega) (fun a ha => by have := h2 a ha; simp; omega)
      rw [q2, e1, f1, f2]
    · rw [q2]
      rw [e1] at hs
      unfold Ascending at hs ⊢
      rw [List.pairwise_append] at hs ⊢
      refine ⟨hs.1, List.pairwise_cons.2 ⟨h2, hs.2.1⟩, ?_⟩
      intro a ha b hb
      rcases List.mem_cons.1 hb with rfl | hb
      · exact (o.flip a b).2 (h1 a ha)
      · exact hs.2.2 a ha b hb

/-- C12, second part. The height of a red-black tree is at most twice the logarithm of its size. -/
theorem height_bound {t : Tree} (h : RedBlack t) : t.height ≤ 2 * Nat.log2 (t.size + 1) := redBlack_height h

/-- C12 for the caller who chooses the place (as for equal keys): a node put at any empty place of the tree appears there in the order, and the rules hold again. -/
theorem insert_node_correct (cb : Cb α) {h : Heap α} {k : Ctx} {x : Addr} {fuel : Nat} (hh : Holds h (plug k .nil)) (hrb : RedBlack (plug k .nil)) (hx : x ≠ 0)
    (hxt : x ∉ (plug k .nil).inorder) (hf : (plug k .nil).height < fuel) :
    ∃ h' t', insertNode cb fuel h (up k) (linkOf k) x = some h' ∧ Holds h' t' ∧ RedBlack t' ∧ t'.inorder = pre k ++ x :: post k ∧ (plug k .nil).inorder = pre k ++ post k ∧
      Others h h' t'.inorder := by
  obtain ⟨h', t', e, q1, q2, q3, q4⟩ := insertNode_at cb hh hrb hx hxt hf
  exact ⟨h', t', e, q1, q3, q2, by simp [inorder_plug, Tree.inorder], by rw [q2]; exact q4⟩

/-- C13. Deleting a node of a red-black tree takes exactly this node out of the order, the rules hold again, and no node outside the tree was touched. -/
theorem delete_correct (cb : Cb α) {h : Heap α} {t : Tree} {x : Addr} {fuel : Nat} (hh : Holds h t) (hrb : RedBlack t) (hx : x ∈ t.inorder) (hf : t.height ≤ fuel) :
    ∃ h' t', delete cb fuel h x = some h' ∧ Holds h' t' ∧ RedBlack t' ∧ t'.inorder = t.inorder.erase x ∧ Others h h' t.inorder := by
  obtain ⟨h', t', e, q1, q2, q3, q4⟩ := delete_holds cb hh hrb hx hf
  exact ⟨h', t', e, q1, q3, q2, q4⟩

theorem spec_length (cmp : Addr → Addr → Int) (L : List Addr) (o : Op) (hL : ∀ x, L.filter (fun a => 0 < cmp x a) ++ L.filter (fun a => cmp x a < 0) = L ∨ L.any (fun a => cmp x a == 0) = true) :
    (o.spec cmp L).length ≤ L.length + 1 := by
  cases o with
  | insert x =>
    simp only [Op.spec]
    split
    · omega
    · rename_i hn
      rcases hL x with h | h
      · have := congrArg List.length h
        simp only [List.length_append, List.length_cons] at this ⊢
        omega
      · exact absurd h hn
  | delete x =>
    simp only [Op.spec]
    have := List.length_erase_le (a := x) (l := L)
    omega

theorem step_correct (cb : Cb α) {cmp : Addr → Addr → Int} (o : Order cmp) {h : Heap α} {t : Tree} {p : Op} {fuel : Nat}
    (hh : Holds h t) (hrb : RedBlack t) (hs : Ascending cmp t.inorder) (hp : p.ok t.inorder) (hf : t.height < fuel) :
    ∃ h' t', p.run cmp cb fuel h = some h' ∧ Holds h' t' ∧ RedBlack t' ∧ t'.inorder = p.spec cmp t.inorder ∧ Ascending cmp t'.inorder ∧ t'.size ≤ t.size + 1 := by
  cases p with
  | insert x =>
    obtain ⟨hx, hxt⟩ := hp
    obtain ⟨h1, h2⟩ := insert_correct cb o hh hrb hs hx hxt hf
    cases hany : t.inorder.any (fun a => cmp x a == 0) with
    | true =>
      refine ⟨h, t, by simp [Op.run, h1 hany], hh, hrb, by simp [Op.spec, hany], hs, by omega⟩
    | false =>
      obtain ⟨h', t', e, q1, q2, q3, q4, _⟩ := h2 hany
      have hsz : t'.size ≤ t.size + 1 := by
        have hle : (t.inorder.filter (fun a => decide (0 < cmp x a))).length + (t.inorder.filter (fun a => decide (cmp x a < 0))).length ≤ t.inorder.length := by
          have e1 := List.length_eq_countP_add_countP (fun a => decide (0 < cmp x a)) (l := t.inorder)
          rw [← List.countP_eq_length_filter, ← List.countP_eq_length_filter]
          have : t.inorder.countP (fun a => decide (cmp x a < 0)) ≤ t.inorder.countP (fun a => decide ¬ (decide (0 < cmp x a) = true)) := by
            refine List.countP_mono_left ?_
            intro a _ ha
            simp only [decide_eq_true_eq] at ha ⊢
            omega
          omega
        simp only [Tree.size, q3, List.length_append, List.length_cons]
        omega
      exact ⟨h', t', by simp [Op.run, e], q1, q2, by simp [Op.spec, hany, q3], q4, hsz⟩
  | delete x =>
    obtain ⟨h', t', e, q1, q2, q3, _⟩ := delete_correct cb hh hrb hp (Nat.le_of_lt hf)
    refine ⟨h', t', e, q1, q2, q3, ?_, ?_⟩
    · rw [q3]; exact hs.sublist List.erase_sublist
    · have := List.length_erase_le (a := x) (l := t.inorder)
      simp only [Tree.size, q3]; omega

theorem history_from (cb : Cb α) {cmp : Addr → Addr → Int} (o : Order cmp) : ∀ (ops : List Op) {h : Heap α} {t : Tree} {fuel : Nat},
    Holds h t → RedBlack t → Ascending cmp t.inorder → okAll cmp ops t.inorder → 2 * Nat.log2 (t.size + ops.length + 1) < fuel →
    ∃ h' t', runAll cmp cb fuel ops h = some h' ∧ Holds h' t' ∧ RedBlack t' ∧ t'.inorder = specAll cmp ops t.inorder ∧ Ascending cmp t'.inorder
  | [], h, t, fuel, hh, hrb, hs, _, _ => ⟨h, t, rfl, hh, hrb, rfl, hs⟩
  | p :: ops, h, t, fuel, hh, hrb, hs, hok, hf => by
    have hmono : ∀ {a b : Nat}, a ≤ b → 0 < a → Nat.log2 a ≤ Nat.log2 b := by
      intro a b hab ha
      exact (Nat.le_log2 (by omega)).2 (Nat.le_trans (Nat.log2_self_le (by omega)) hab)
    simp only [List.length_cons] at hf
    have hht := redBlack_height hrb
    have hm1 := hmono (a := t.size + 1) (b := t.size + (ops.length + 1) + 1) (by omega) (by omega)
    obtain ⟨h', t', e, q1, q2, q3, q4, q5⟩ := step_correct cb o (fuel := fuel) hh hrb hs hok.1 (by omega)
    have hm2 := hmono (a := t'.size + ops.length + 1) (b := t.size + (ops.length + 1) + 1) (by omega) (by omega)
    obtain ⟨h2, t2, e2, w1, w2, w3, w4⟩ := history_from cb o ops (fuel := fuel) q1 q2 q4 (by rw [q3]; exact hok.2) (by omega)
    refine ⟨h2, t2, ?_, w1, w2, ?_, w4⟩
    · simp only [runAll, e, Option.bind_some, e2]
    · rw [w3, q3]; rfl

/-- C12 and C13 for whole histories. From an empty tree, after any sequence of allowed insertions and deletions, the tree holds exactly the nodes that
the specification says, in ascending order; the red-black rules hold, and the height is at most twice the logarithm of the size. No loop needs more
iterations than that. -/
theorem history_correct (cb : Cb α) {cmp : Addr → Addr → Int} (o : Order cmp) (ops : List Op) {h : Heap α} {fuel : Nat} (h0 : h.root = 0)
    (hok : okAll cmp ops []) (hf : 2 * Nat.log2 (ops.length + 1) < fuel) :
    ∃ h' t', runAll cmp cb fuel ops h = some h' ∧ Holds h' t' ∧ t'.inorder = specAll cmp ops [] ∧ Ascending cmp t'.inorder ∧ RedBlack t' ∧
      t'.height ≤ 2 * Nat.log2 (t'.size + 1) := by
  obtain ⟨h', t', e, q1, q2, q3, q4⟩ := history_from cb o ops (t := .nil) (h := h) (fuel := fuel) ⟨h0, trivial, by simp [Tree.inorder]⟩ ⟨rfl, 0, rfl⟩ (by simp [Ascending, Tree.inorder]) hok
    (by simpa [Tree.size, Tree.inorder] using hf)
  exact ⟨h', t', e, q1, q3, q4, q2, redBlack_height q2⟩

/-- C14. A lookup by key returns a node that compares equal, iff there is one; otherwise `NULL`. -/
theorem find_correct {h : Heap α} {f : Addr → Int} {t : Tree} {fuel : Nat} (hh : Holds h t) (hs : Fits f t.inorder) (hf : t.height < fuel) :
    ∃ p, find h f fuel h.root = some p ∧ (p ≠ 0 ↔ ∃ a, a ∈ t.inorder ∧ f a = 0) ∧ (p ≠ 0 → p ∈ t.inorder ∧ f p = 0) := by
  obtain ⟨p, e, ⟨h1, h2, h3⟩ | ⟨h1, h2⟩⟩ := find_holds hh hs hf
  · exact ⟨p, e, ⟨fun _ => ⟨p, h1, h3⟩, fun _ => h2⟩, fun _ => ⟨h1, h3⟩⟩
  · refine ⟨p, e, ⟨fun hp => absurd h1 hp, ?_⟩, fun hp => absurd h1 hp⟩
    rintro ⟨a, ha, hz⟩
    exact absurd hz (h2 a ha)

/-- C14. `bfdev_rb_find_last` returns an equal node iff there is one; otherwise it gives the empty place between the smaller and the greater nodes, and says
whether this place is leftmost. -/
theorem findLast_correct {h : Heap α} {f : Addr → Int} {t : Tree} {fuel : Nat} (hh : Holds h t) (hs : Fits f t.inorder) (hf : t.height ≤ fuel) :
    ∃ p link par lm, findLast h f fuel = some (p, link, par, lm) ∧ (p ≠ 0 ↔ ∃ a, a ∈ t.inorder ∧ f a = 0) ∧ (p ≠ 0 → p ∈ t.inorder ∧ f p = 0 ∧ link.get h = p ∧ par = p) ∧
      (p = 0 → link.get h = 0 ∧ ∃ k, t = plug k .nil ∧ link = linkOf k ∧ par = up k ∧ (∀ a, a ∈ pre k → f a < 0) ∧ (∀ a, a ∈ post k → 0 < f a) ∧ (lm = true ↔ ∀ a, a ∈ t.inorder → 0 < f a)) := by
  rcases findLast_holds hh hs hf with ⟨p, link, lm, e, h1, h2, h3, h4⟩ | ⟨link, par, lm, e, k, rfl, rfl, rfl, rfl, h1, h2⟩
  · exact ⟨p, link, p, lm, e, ⟨fun _ => ⟨p, h3, h4⟩, fun _ => h2⟩, fun _ => ⟨h3, h4, h1, rfl⟩, fun hp => absurd hp h2⟩
  · have hin : ∀ a, a ∈ (plug k .nil).inorder ↔ a ∈ pre k ∨ a ∈ post k := by intro a; simp [inorder_plug, Tree.inorder]
    refine ⟨0, linkOf k, up k, _, e, ⟨fun hp => absurd rfl hp, ?_⟩, fun hp => absurd rfl hp, fun _ => ⟨linkOf_get (at_iff.2 hh).1, k, rfl, rfl, rfl, h1, h2, ?_⟩⟩
    · rintro ⟨a, ha, hz⟩
      rcases (hin a).1 ha with ha | ha
      · have := h1 a ha; omega
      · have := h2 a ha; omega
    · rw [List.isEmpty_iff]
      constructor
      · intro hp a ha
        rcases (hin a).1 ha with ha | ha
        · rw [hp] at ha; simp at ha
        · exact h2 a ha
      · intro hall
        rw [List.eq_nil_iff_forall_not_mem]
        intro a ha
        have := h1 a ha
        have := hall a ((hin a).2 (Or.inl ha))
        omega

/-- C14. `bfdev_rb_parent` answers `NULL` iff an equal node is there; otherwise it gives the empty place where the node belongs. -/
theorem parent_correct {cmp : Addr → Addr → Int} (o : Order cmp) {h : Heap α} {t : Tree} {fuel : Nat} (x : Addr) (hh : Holds h t) (hs : Ascending cmp t.inorder) (hf : t.height ≤ fuel) :
    ∃ res, parent h (cmp x) fuel = some res ∧ (res = none ↔ ∃ a, a ∈ t.inorder ∧ cmp x a = 0) ∧
      (∀ link par lm, res = some (link, par, lm) → link.get h = 0 ∧ ∃ k, t = plug k .nil ∧ link = linkOf k ∧ par = up k ∧
        (∀ a, a ∈ pre k → cmp a x < 0) ∧ (∀ a, a ∈ post k → cmp x a < 0) ∧ (lm = true ↔ pre k = [])) := by
  rcases parent_holds hh (o.fits hs x) hf with ⟨e, h1⟩ | ⟨link, par, lm, e, k, rfl, rfl, rfl, rfl, h1, h2⟩
  · exact ⟨none, e, ⟨fun _ => h1, fun _ => rfl⟩, by intro _ _ _ hr; simp at hr⟩
  · refine ⟨_, e, ⟨fun hr => by simp at hr, ?_⟩, ?_⟩
    · rintro ⟨a, ha, hz⟩
      simp only [inorder_plug, Tree.inorder, List.append_nil, List.mem_append] at ha
      rcases ha with ha | ha
      · have := h1 a ha; simp only at this; omega
      · have := h2 a ha; simp only at this; omega
    · intro link par lm hr
      simp only [Option.some.injEq, Prod.mk.injEq] at hr
      obtain ⟨rfl, rfl, rfl⟩ := hr
      refine ⟨linkOf_get (at_iff.2 hh).1, k, rfl, rfl, rfl, ?_, ?_, List.isEmpty_iff⟩
      · intro a ha
        have := h1 a ha
        simp only at this
        exact (o.flip a x).2 (by omega)
      · intro a ha
        have := h2 a ha
        simp only at this
        omega

/-- C15. First/next visits every node of any tree once, in order. -/
theorem next_visits {h : Heap α} {t : Tree} {fuel fuel2 : Nat} (hh : Holds h t) (hf : t.height ≤ fuel) (hf2 : t.size < fuel2) :
    ∃ p, first h fuel = some p ∧ walk (next h fuel) fuel2 p = some t.inorder := walk_next hh hf hf2
/-- C15. Last/prev visits them in the reverse order. -/
theorem prev_visits {h : Heap α} {t : Tree} {fuel fuel2 : Nat} (hh : Holds h t) (hf : t.height ≤ fuel) (hf2 : t.size < fuel2) :
    ∃ p, last h fuel = some p ∧ walk (prev h fuel) fuel2 p = some t.inorder.reverse := walk_prev hh hf hf2
/-- C15. The pre-order walk: each node before the nodes of its left, and these before the nodes of its right subtree. -/
theorem pre_visits {h : Heap α} {t : Tree} {fuel fuel2 : Nat} (hh : Holds h t) (hf : t.height ≤ fuel) (hf2 : t.size < fuel2) :
    walk (preNext h fuel) fuel2 (preFirst h) = some t.preorder := walk_pre hh hf hf2
/-- C15. The post-order walk: each node behind the nodes of its subtrees. -/
theorem post_visits {h : Heap α} {t : Tree} {fuel fuel2 : Nat} (hh : Holds h t) (hf : t.height ≤ fuel) (hf2 : t.size < fuel2) :
    ∃ p, postFirst h fuel = some p ∧ walk (postNext h fuel) fuel2 p = some t.postorder := walk_post hh hf hf2
/-- C15. All these orders list each node of the tree exactly once. -/
theorem orders_once {h : Heap α} {t : Tree} (hh : Holds h t) : t.inorder.Nodup ∧ t.preorder.Perm t.inorder ∧ t.postorder.Perm t.inorder :=
  ⟨hh.2.2, preorder_perm t, postorder_perm t⟩

/-- C12. Replacing a node puts the new one at its place, with its colour; nothing else changes. -/
theorem replace_correct {h : Heap α} {t : Tree} {x y : Addr} (hh : Holds h t) (hrb : RedBlack t) (hx : x ∈ t.inorder) (hy : y ≠ 0) (hyt : y ∉ t.inorder) :
    ∃ A B t', t.inorder = A ++ x :: B ∧ Holds (replace h x y) t' ∧ t'.inorder = A ++ y :: B ∧ RedBlack t' ∧ Others h (replace h x y) (y :: t.inorder) := by
  obtain ⟨k, l, c, r, rfl⟩ := exists_ctx t hx
  obtain ⟨hA, ho⟩ := replace_at (at_iff.2 hh) hy hyt
  refine ⟨pre k ++ l.inorder, r.inorder ++ post k, _, by simp [inorder_plug, Tree.inorder], at_iff.1 hA, by simp [inorder_plug, Tree.inorder], ?_, ho⟩
  obtain ⟨n, h1, h2, h3⟩ := redBlack_plug k _ hrb
  refine plug_redBlack k _ n h1 ?_ h3
  cases c
  · exact h2
  · exact h2

/-- C12. In a cached tree the insertion keeps `leftmost` the first node. -/
theorem cached_insert_correct (cb : Cb α) {cmp : Addr → Addr → Int} (o : Order cmp) {h : Heap α} {t : Tree} {x : Addr} {fuel : Nat}
    (hh : Holds h t) (hrb : RedBlack t) (hs : Ascending cmp t.inorder) (hx : x ≠ 0) (hxt : x ∉ t.inorder) (hf : t.height < fuel) :
    ∃ h' lm t' res, cachedInsert cb fuel h (t.inorder.headD 0) x (cmp x) = some (h', lm, res) ∧ Holds h' t' ∧ RedBlack t' ∧ Ascending cmp t'.inorder ∧
      t'.inorder = (Op.insert x).spec cmp t.inorder ∧ lm = t'.inorder.headD 0 := by
  obtain ⟨h', t', e, q1, q2, q3, q4, _⟩ := step_correct cb o hh hrb hs (p := .insert x) ⟨hx, hxt⟩ hf
  obtain ⟨h1, h2⟩ := insert_correct cb o hh hrb hs hx hxt hf
  unfold cachedInsert
  rcases parent_holds (fuel := fuel) hh (o.fits hs x) (by omega) with ⟨e1, a, ha, hz⟩ | ⟨link, p, lm, e1, k, rfl, rfl, rfl, rfl, w1, w2⟩
  · rw [e1]
    refine ⟨h, _, t, false, rfl, hh, hrb, hs, ?_, rfl⟩
    have : t.inorder.any (fun a => cmp x a == 0) = true := by
      simp only [List.any_eq_true, beq_iff_eq]; exact ⟨a, ha, hz⟩
    simp [Op.spec, this]
  · rw [e1]
    obtain ⟨h3, t3, e3, r1, r2, r3, _⟩ := insertNode_at cb hh hrb hx hxt hf
    have hins : insert cb fuel h x (cmp x) = some (h3, true) := by
      unfold insert; rw [e1]; simp [e3]
    have he : h3 = h' := by simpa [Op.run, hins] using e
    subst he
    refine ⟨h3, _, t', true, by simp [e3]; rfl, q1, q2, q4, q3, ?_⟩
    -- t' and t3 have the same order
    have hany : (plug k .nil).inorder.any (fun a => cmp x a == 0) = false := by
      rw [List.any_eq_false]
      intro a ha
      simp only [inorder_plug, Tree.inorder, List.append_nil, List.mem_append] at ha
      simp only [beq_iff_eq]
      rcases ha with ha | ha
      · have := w1 a ha; simp only at this; omega
      · have := w2 a ha; simp only at this; omega
    obtain ⟨f1, f2⟩ := filter_split (A := pre k) (B := post k) (p := fun a => decide (0 < cmp x a)) (q := fun a => decide (cmp x a < 0))
      (fun a ha => by have := w1 a ha; simp only at this; simp; omega) (fun a ha => by have := w2 a ha; simp only at this; simp; omega)
    have hin : t'.inorder = pre k ++ x :: post k := by
      rw [q3, Op.spec, if_neg (by rw [hany]; simp)]
      have : (plug k .nil).inorder = pre k ++ post k := by simp [inorder_plug, Tree.inorder]
      rw [this, f1, f2]
    rw [hin, inorder_plug]
    cases hp : pre k with
    | nil => simp
    | cons a A => simp

/-- C13. In a cached tree the deletion keeps `leftmost` the first node. -/
theorem cached_delete_correct (cb : Cb α) {h : Heap α} {t : Tree} {x : Addr} {fuel : Nat} (hh : Holds h t) (hrb : RedBlack t) (hx : x ∈ t.inorder) (hf : t.height ≤ fuel) :
    ∃ h' lm t' res, cachedDelete cb fuel h (t.inorder.headD 0) x = some (h', lm, res) ∧ Holds h' t' ∧ RedBlack t' ∧ t'.inorder = t.inorder.erase x ∧ lm = t'.inorder.headD 0 := by
  obtain ⟨h', t', e, q1, q2, q3, _⟩ := delete_correct cb hh hrb hx hf
  unfold cachedDelete
  cases hL : t.inorder with
  | nil => rw [hL] at hx; simp at hx
  | cons a L =>
    simp only [List.headD_cons]
    by_cases hax : a = x
    · subst hax
      simp only [ne_eq, not_true_eq_false, if_false]
      obtain ⟨k, l, c, r, rfl⟩ := exists_ctx t hx
      have e2 : (plug k (.node l a c r)).inorder = (pre k ++ l.inorder) ++ a :: (r.inorder ++ post k) := by simp [inorder_plug, Tree.inorder]
      have hnd := hh.2.2
      have := (nodup_split (A := []) (B := L) (by rw [hL] at hnd; exact hnd) (show [] ++ a :: L = _ from hL.symm.trans e2)).2
      rw [next_at (at_iff.2 hh) hf, ← this]
      refine ⟨h', _, t', _, by simp [e]; exact ⟨rfl, rfl⟩, q1, q2, by rw [q3, hL], ?_⟩
      rw [q3, hL]; simp
    · simp only [ne_eq, hax, not_false_eq_true, if_true]
      refine ⟨h', _, t', _, by simp [e]; exact ⟨rfl, rfl⟩, q1, q2, by rw [q3, hL], ?_⟩
      rw [q3, hL]; simp [hax]

/-! ### The hypotheses are met -/

/-- Nodes compared by their addresses. -/
def exCmp (a b : Addr) : Int := (a : Int) - b
theorem exOrder : Order exCmp := ⟨fun a b => by simp only [exCmp]; omega, fun a b c => by simp only [exCmp]; omega⟩
def exEmpty : Heap Unit := ⟨fun _ => 77, fun _ => 77, fun _ => 77, fun _ => true, fun _ => (), 0⟩
def exOps : List Op := [.insert 10, .insert 5, .insert 7, .insert 20, .insert 30, .insert 6, .insert 1, .delete 7, .insert 8, .delete 10, .delete 1, .insert 2]

example : okAll exCmp exOps [] := by simp [okAll, exOps, Op.ok, Op.spec, exCmp]
example : specAll exCmp exOps [] = [2, 5, 6, 8, 20, 30] := by decide +kernel
example : (runAll exCmp Cb.dummy 10 exOps exEmpty).bind (fun h => (first h 10).bind (walk (next h 10) 20)) = some [2, 5, 6, 8, 20, 30] := by decide +kernel
example : (runAll exCmp Cb.dummy 10 exOps exEmpty).bind (fun h => (postFirst h 10).bind (walk (postNext h 10) 20)) = some [2, 5, 8, 6, 30, 20] := by decide +kernel
example : (runAll exCmp Cb.dummy 10 exOps exEmpty).bind (fun h => find h (fun a => (a : Int) - 6) 10 h.root) = some 6 := by decide +kernel

end Bfdev.Rbtree

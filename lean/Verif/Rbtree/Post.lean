import Verif.Rbtree.Iter
/-!
C93: walking a red-black tree in postorder while the nodes already visited are given back.
-/
namespace Bfdev.Rbtree.Post
open Rbtree

variable {α : Type}

/-- `bfdev_rb_post_for_each_safe`, rbtree.h:529-531 and 835-836: the next node is fetched before the body runs, and the body may do what it likes with the memory of the node
it was given. The nodes visited. -/
def forEachSafe (body : Heap α → Addr → Heap α) (depth : Nat) : Nat → Heap α → Addr → Option (List Addr)
  | 0, _, _ => none
  | fuel + 1, h, pos =>
    if pos = 0 then some []
    else (postNext h depth pos).bind fun tmp => (forEachSafe body depth fuel (body h pos) tmp).map (pos :: ·)

/-! ## Specification -/

/-- The body changes no node but the one it was given. -/
def Private (body : Heap α → Addr → Heap α) : Prop :=
  ∀ h pos x, x ≠ pos → (body h pos).par x = h.par x ∧ (body h pos).left x = h.left x ∧ (body h pos).right x = h.right x ∧ (body h pos).black x = h.black x

/-- In the list, `x` comes before `y`. -/
def Before (l : List Addr) (x y : Addr) : Prop := ∃ a b c, l = a ++ x :: b ++ y :: c

/-! ## Proofs -/

/-- The same links and colour. -/
def Same (h h' : Heap α) (x : Addr) : Prop := h'.par x = h.par x ∧ h'.left x = h.left x ∧ h'.right x = h.right x ∧ h'.black x = h.black x

theorem rep_same {h h' : Heap α} : ∀ {t : Tree} {p : Addr}, Rep h p t → (∀ x ∈ t.inorder, Same h h' x) → Rep h' p t
  | .nil, _, _, _ => trivial
  | .node l a c r, p, ⟨h1, h2, h3, h4, h5, h6, h7⟩, hs => by
    obtain ⟨s1, s2, s3, s4⟩ := hs a (by simp [Tree.inorder])
    exact ⟨h1, s1.trans h2, s2.trans h3, s3.trans h4, s4.trans h5, rep_same h6 (fun x hx => hs x (by simp [Tree.inorder, hx])), rep_same h7 (fun x hx => hs x (by simp [Tree.inorder, hx]))⟩

/-- What is visited below the top of a tree. -/
def sub : Tree → List Addr
  | .nil => []
  | .node l _ _ r => l.postorder ++ r.postorder

theorem top_mem : ∀ {t : Tree}, t ≠ .nil → t.top ∈ t.inorder
  | .nil, h => absurd rfl h
  | .node _ _ _ _, _ => by simp [Tree.top, Tree.inorder]

theorem post_sub {t : Tree} (h : t ≠ .nil) : t.postorder = sub t ++ [t.top] := by
  cases t with
  | nil => exact absurd rfl h
  | node l a c r => simp [Tree.postorder, sub, Tree.top]

/-- The walk through a tree, from its first node to its top. -/
theorem visit {body : Heap α → Addr → Heap α} (hb : Private body) {depth : Nat} : ∀ (t : Tree) (p : Addr) (h : Heap α) (fuel : Nat), Rep h p t → t ≠ .nil → t.inorder.Nodup → t.height ≤ depth →
    ∃ h', (∀ x, x ∉ sub t → Same h h' x) ∧ forEachSafe body depth (fuel + (sub t).length) h (t.postorder.headD 0) = (forEachSafe body depth fuel h' t.top).map (sub t ++ ·)
  | .nil, _, _, _, _, hn, _, _ => absurd rfl hn
  | .node l a c r, p, h, fuel, ⟨h1, h2, h3, h4, h5, h6, h7⟩, _, hnd, hd => by
    have step : ∀ (x : Addr) (h1 : Heap α) (nx : Addr) (fl : Nat), x ≠ 0 → postNext h1 depth x = some nx →
        ∃ h2, (∀ y, y ≠ x → Same h1 h2 y) ∧ forEachSafe body depth (fl + 1) h1 x = (forEachSafe body depth fl h2 nx).map (x :: ·) := by
      intro x h1 nx fl hx e
      exact ⟨body h1 x, fun y hy => hb h1 x y hy, by rw [forEachSafe, if_neg hx, e, Option.bind_some]⟩
    simp only [Tree.inorder, List.nodup_append, List.nodup_cons, List.mem_cons] at hnd
    obtain ⟨n1, ⟨n2, n3⟩, n4⟩ := hnd
    simp only [Tree.height] at hd
    -- the right side and the top, in a memory whose left side may be gone
    have right : ∀ (g : Heap α) (fl : Nat), r ≠ .nil → (∀ x, x ∉ l.inorder → Same h g x) → ∃ g', (∀ x, x ∉ r.postorder → Same g g' x) ∧
        forEachSafe body depth (fl + r.postorder.length) g (r.postorder.headD 0) = (forEachSafe body depth fl g' a).map (r.postorder ++ ·) := by
      intro g fl hr hs
      have hrep : Rep g a r := rep_same h7 fun x hx => hs x fun hm => n4 x hm x (Or.inr hx) rfl
      obtain ⟨g1, k1, k2⟩ := visit (depth := depth) hb r a g (fl + 1) hrep hr n3 (by omega)
      have hal : a ∉ l.inorder := fun hm => n4 a hm a (Or.inl rfl) rfl
      have har : a ∉ sub r := fun hm => n2 ((postorder_perm r).mem_iff.1 (by rw [post_sub hr]; simp [hm]))
      have hnr : r.postorder.Nodup := (postorder_perm r).nodup_iff.2 n3
      have htr : r.top ∉ sub r := by
        rw [post_sub hr, List.nodup_append] at hnr
        exact fun hm => hnr.2.2 _ hm _ (by simp) rfl
      have hr0 : r.top ≠ 0 := (rep_top h7).2 hr
      obtain ⟨a1, a2, a3, a4⟩ := k1 a har
      obtain ⟨b1, b2, b3, b4⟩ := hs a hal
      have hpar : g1.par r.top = a := by
        rw [(k1 r.top htr).1]
        cases r with
        | nil => exact absurd rfl hr
        | node rl ra rc rr => exact hrep.2.1
      have hnext : postNext g1 depth r.top = some a := by
        unfold postNext
        rw [if_neg hr0]
        dsimp only
        rw [hpar, a2, b2, h3, if_neg]
        rintro ⟨_, e, _⟩
        by_cases hl : l = .nil
        · subst hl; exact hr0 e
        · exact n4 l.top (top_mem hl) r.top (Or.inr (top_mem hr)) e.symm
      obtain ⟨g2, m1, m2⟩ := step r.top g1 a fl hr0 hnext
      refine ⟨g2, fun x hx => ?_, ?_⟩
      · rw [post_sub hr, List.mem_append, List.mem_singleton, not_or] at hx
        obtain ⟨q1, q2, q3, q4⟩ := k1 x hx.1
        obtain ⟨w1, w2, w3, w4⟩ := m1 x hx.2
        exact ⟨w1.trans q1, w2.trans q2, w3.trans q3, w4.trans q4⟩
      · have hlen : fl + r.postorder.length = fl + 1 + (sub r).length := by
          rw [post_sub hr, List.length_append, List.length_singleton]; omega
        rw [hlen, k2, m2, post_sub hr]
        simp [Option.map_map, Function.comp_def, List.append_assoc]
    rw [show (Tree.node l a c r).postorder = l.postorder ++ r.postorder ++ [a] from rfl, show sub (.node l a c r) = l.postorder ++ r.postorder from rfl, show (Tree.node l a c r).top = a from rfl]
    by_cases hl : l = .nil
    · subst hl
      rw [show Tree.nil.postorder = [] from rfl, List.nil_append]
      by_cases hr : r = .nil
      · subst hr
        exact ⟨h, fun x _ => ⟨rfl, rfl, rfl, rfl⟩, by simp [Tree.postorder]⟩
      · rw [headD_append_left (postorder_ne hr)]
        exact right h fuel hr (fun x _ => ⟨rfl, rfl, rfl, rfl⟩)
    · rw [List.append_assoc, headD_append_left (postorder_ne hl)]
      obtain ⟨g1, k1, k2⟩ := visit (depth := depth) hb l a h (fuel + r.postorder.length + 1) h6 hl n1 (by omega)
      have hal : a ∉ sub l := fun hm => n4 a ((postorder_perm l).mem_iff.1 (by rw [post_sub hl]; simp [hm])) a (Or.inl rfl) rfl
      have hnl : l.postorder.Nodup := (postorder_perm l).nodup_iff.2 n1
      have htl : l.top ∉ sub l := by
        rw [post_sub hl, List.nodup_append] at hnl
        exact fun hm => hnl.2.2 _ hm _ (by simp) rfl
      have hl0 : l.top ≠ 0 := (rep_top h6).2 hl
      obtain ⟨a1, a2, a3, a4⟩ := k1 a hal
      have hpar : g1.par l.top = a := by
        rw [(k1 l.top htl).1]
        cases l with
        | nil => exact absurd rfl hl
        | node rl ra rc rr => exact h6.2.1
      have hsub : ∀ x, x ∉ l.inorder → Same h g1 x := fun x hx => k1 x fun hm => hx ((postorder_perm l).mem_iff.1 (by rw [post_sub hl]; simp [hm]))
      have hlen : l.postorder.length = (sub l).length + 1 := by rw [post_sub hl, List.length_append, List.length_singleton]
      have after : ∀ g2, (∀ y, y ≠ l.top → Same g1 g2 y) → ∀ x, x ∉ l.postorder → Same h g2 x := by
        intro g2 m1 x hx
        rw [post_sub hl, List.mem_append, List.mem_singleton, not_or] at hx
        obtain ⟨q1, q2, q3, q4⟩ := k1 x hx.1
        obtain ⟨w1, w2, w3, w4⟩ := m1 x hx.2
        exact ⟨w1.trans q1, w2.trans q2, w3.trans q3, w4.trans q4⟩
      by_cases hr : r = .nil
      · subst hr
        have hnext : postNext g1 depth l.top = some a := by
          unfold postNext
          rw [if_neg hl0]
          dsimp only
          rw [hpar, a3, h4, if_neg (by simp [Tree.top])]
        obtain ⟨g2, m1, m2⟩ := step l.top g1 a fuel hl0 hnext
        rw [show Tree.nil.postorder = [] from rfl, List.append_nil]
        refine ⟨g2, after g2 m1, ?_⟩
        have k2 : forEachSafe body depth (fuel + 1 + (sub l).length) h (l.postorder.headD 0) = _ := k2
        rw [show fuel + l.postorder.length = fuel + 1 + (sub l).length by omega, k2]
        rw [show fuel + Tree.nil.postorder.length + 1 = fuel + 1 from rfl, m2, post_sub hl]
        simp [Option.map_map, Function.comp_def, List.append_assoc]
      · have hr0 : r.top ≠ 0 := (rep_top h7).2 hr
        have hrep : Rep g1 a r := rep_same h7 fun x hx => hsub x fun hm => n4 x hm x (Or.inr hx) rfl
        have hnext : postNext g1 depth l.top = some (r.postorder.headD 0) := by
          unfold postNext
          rw [if_neg hl0]
          dsimp only
          rw [hpar, a2, a3, h3, h4, if_pos ⟨h1, rfl, hr0⟩]
          exact leftDeep_rep r a depth hrep hr (by omega)
        obtain ⟨g2, m1, m2⟩ := step l.top g1 _ (fuel + r.postorder.length) hl0 hnext
        have hs2 := after g2 m1
        obtain ⟨g3, r1, r2⟩ := right g2 fuel hr (fun x hx => hs2 x fun hm => hx ((postorder_perm l).mem_iff.1 hm))
        refine ⟨g3, fun x hx => ?_, ?_⟩
        · rw [List.mem_append, not_or] at hx
          obtain ⟨q1, q2, q3, q4⟩ := hs2 x hx.1
          obtain ⟨w1, w2, w3, w4⟩ := r1 x hx.2
          exact ⟨w1.trans q1, w2.trans q2, w3.trans q3, w4.trans q4⟩
        · rw [show fuel + (l.postorder ++ r.postorder).length = fuel + r.postorder.length + 1 + (sub l).length by rw [List.length_append]; omega, k2, m2, r2, post_sub hl]
          simp [Option.map_map, Function.comp_def, List.append_assoc]

theorem before_sub {h : Heap α} : ∀ {t : Tree} {p : Addr}, Rep h p t → ∀ x ∈ t.inorder, x = t.top ∨ Before t.postorder x (h.par x)
  | .nil, _, _, _, hx => by cases hx
  | .node l a c r, p, ⟨h1, h2, h3, h4, h5, h6, h7⟩, x, hx => by
    have part : ∀ {s : Tree}, Rep h a s → (x ∈ s.inorder → x = s.top ∨ Before s.postorder x (h.par x)) → x ∈ s.inorder → (∃ A B, (Tree.node l a c r).postorder = A ++ s.postorder ++ B ++ [a]) → Before (Tree.node l a c r).postorder x (h.par x) := by
      intro s hs ih hx ⟨A, B, e⟩
      rcases ih hx with rfl | ⟨u, v, w, e2⟩
      · have hsn : s ≠ .nil := by rintro rfl; cases hx
        have hp : h.par s.top = a := by
          cases s with
          | nil => exact absurd rfl hsn
          | node sl sa sc sr => exact hs.2.1
        exact ⟨A ++ sub s, B, [], by rw [e, post_sub hsn, hp]; simp⟩
      · exact ⟨A ++ u, v, w ++ B ++ [a], by rw [e, e2]; simp⟩
    simp only [Tree.inorder, List.mem_append, List.mem_cons] at hx
    rcases hx with hx | rfl | hx
    · exact Or.inr (part h6 (before_sub h6 x) hx ⟨[], r.postorder, by simp [Tree.postorder]⟩)
    · exact Or.inl rfl
    · exact Or.inr (part h7 (before_sub h7 x) hx ⟨l.postorder, [], by simp [Tree.postorder]⟩)

/-- **C93.** Walking a red-black tree in postorder, whatever the loop does to the node it is given — also freeing it: every node is visited exactly once, and after its children. -/
theorem post_safe {h : Heap α} {t : Tree} (hh : Holds h t) {body : Heap α → Addr → Heap α} (hb : Private body) {depth fuel : Nat} (hd : t.height ≤ depth) (hf : t.inorder.length < fuel) :
    ∃ pos L, postFirst h depth = some pos ∧ forEachSafe body depth fuel h pos = some L ∧ L.Perm t.inorder ∧ ∀ x ∈ t.inorder, h.par x ≠ 0 → Before L x (h.par x) := by
  refine ⟨t.postorder.headD 0, t.postorder, ?_, ?_, postorder_perm t, fun x hx hp => ?_⟩
  · unfold postFirst
    by_cases hr : h.root = 0
    · obtain rfl := holds_nil hh hr
      rw [if_pos hr]; rfl
    · rw [if_neg hr, hh.1]
      exact leftDeep_rep t 0 depth hh.2.1 (fun e => hr (by rw [hh.1, e]; rfl)) hd
  · by_cases hn : t = .nil
    · subst hn
      obtain ⟨f, rfl⟩ : ∃ f, fuel = f + 1 := ⟨fuel - 1, by omega⟩
      exact (by rw [forEachSafe, if_pos rfl] : forEachSafe body depth (f + 1) h 0 = some [])
    · have hlen : t.inorder.length = (sub t).length + 1 := by
        rw [← (postorder_perm t).length_eq, post_sub hn, List.length_append, List.length_singleton]
      obtain ⟨f, rfl⟩ : ∃ f, fuel = (f + 1 + 1) + (sub t).length := ⟨fuel - t.inorder.length - 1, by omega⟩
      obtain ⟨h', k1, k2⟩ := visit hb t 0 h (f + 1 + 1) hh.2.1 hn hh.2.2 hd
      rw [k2]
      have ht0 : t.top ≠ 0 := (rep_top hh.2.1).2 hn
      have hnp : t.postorder.Nodup := (postorder_perm t).nodup_iff.2 hh.2.2
      have htt : t.top ∉ sub t := by
        rw [post_sub hn, List.nodup_append] at hnp
        exact fun hm => hnp.2.2 _ hm _ (by simp) rfl
      have hpar : h'.par t.top = 0 := by
        rw [(k1 t.top htt).1]
        cases t with
        | nil => exact absurd rfl hn
        | node rl ra rc rr => exact hh.2.1.2.1
      have hnext : postNext h' depth t.top = some 0 := by
        unfold postNext
        rw [if_neg ht0]
        dsimp only
        rw [hpar, if_neg (by simp)]
      rw [forEachSafe, if_neg ht0, hnext, Option.bind_some, forEachSafe, if_pos rfl, post_sub hn]
      rfl
  · rcases before_sub hh.2.1 x hx with rfl | hb
    · have hn : t ≠ .nil := by rintro rfl; cases hx
      cases t with
      | nil => exact absurd rfl hn
      | node rl ra rc rr => exact absurd hh.2.1.2.1 hp
    · exact hb

/-- A tree of three nodes, and a body that overwrites all fields of the node it is given. -/
example : Holds (⟨fun x => if x = 2 then 0 else 2, fun x => if x = 2 then 1 else 0, fun x => if x = 2 then 3 else 0, fun x => x == 2, fun _ => (), 2⟩ : Heap Unit)
      (.node (.node .nil 1 false .nil) 2 true (.node .nil 3 false .nil)) ∧
    Private (fun (h : Heap Unit) x => { h with par := upd h.par x 77, left := upd h.left x 77, right := upd h.right x 77 }) ∧
    (forEachSafe (fun (h : Heap Unit) x => { h with par := upd h.par x 77, left := upd h.left x 77, right := upd h.right x 77 }) 5 5
      (⟨fun x => if x = 2 then 0 else 2, fun x => if x = 2 then 1 else 0, fun x => if x = 2 then 3 else 0, fun x => x == 2, fun _ => (), 2⟩ : Heap Unit) 1) = some [1, 3, 2] := by
  refine ⟨⟨rfl, by simp [Rep, Tree.top], by simp [Tree.inorder]⟩, fun h pos x hx => by simp [upd, hx], by decide +kernel⟩

end Bfdev.Rbtree.Post

import Verif.Segtree.Insert
/-!
Property C29: insertion, and whole histories of insertions and deletions.
-/
set_option linter.unusedSimpArgs false
namespace Bfdev.Segtree
open Rbtree

variable {E : Ends} {fuel : Nat}

theorem top_ne {x : Addr} {s : Tree} (hx : x ≠ 0) (hxs : x ∉ s.inorder) : s.top ≠ x := fun e => by
  by_cases hz : s.top = 0
  · exact hx (e.symm.trans hz)
  · exact hxs (e ▸ top_mem hz)

/-- The links above node `n` while the tree is being rebalanced after node `x` was linked in. -/
structure Climb (h : Heap Int) (x : Addr) (K : Ctx) (n : Addr) : Prop where
  links : Links h 0 K n
  par : h.par n = up K
  n0 : n ≠ 0
  x0 : x ≠ 0
  nK : n ∉ pre K ∧ n ∉ post K
  xK : x ∉ pre K ∧ x ∉ post K
  K0 : (0 : Addr) ∉ pre K ∧ (0 : Addr) ∉ post K
  nd : (pre K ++ post K).Nodup
  lx : h.left n ≠ x
  rx : h.right n ≠ x
  lK : h.left n ∉ pre K ∧ h.left n ∉ post K
  rK : h.right n ∉ pre K ∧ h.right n ∉ post K

theorem Climb.up {h h' : Heap Int} {x n p g : Addr} {d1 d2 : Bool} {c1 c2 : Bool} {s u : Tree} {K : Ctx} (hc : Climb h x (⟨d1, p, c1, s⟩ :: ⟨d2, g, c2, u⟩ :: K) n)
    (e1 : h'.par = h.par) (e2 : h'.left = h.left) (e3 : h'.right = h.right) : Climb h' x K g := by
  obtain ⟨a1, a2, a3, a4, a5, a6, a7, a8, a9, a10, a11, a12⟩ := hc
  have hnu : ∀ y, y ≠ 0 → y ∉ u.inorder → u.top ≠ y := fun y => top_ne
  have hum : u.top ≠ 0 → u.top ∈ u.inorder := top_mem
  have hl : Links h 0 K g ∧ h.par g = Rbtree.up K ∧ ((h.left g = p ∧ h.right g = u.top) ∨ (h.left g = u.top ∧ h.right g = p)) := by
    cases d1 <;> cases d2 <;> obtain ⟨_, _, _, _, _, q1, q2, q3, q4⟩ := a1 <;> rw [upq_zero] at q1 <;> refine ⟨q4, q1, ?_⟩ <;> grind
  obtain ⟨l1, l2, l3⟩ := hl
  have hg0 : g ≠ 0 := by rintro rfl; cases d1 <;> cases d2 <;> simp [pre, post] at a7
  have hfacts : g ∉ pre K ∧ g ∉ post K ∧ x ∉ pre K ∧ x ∉ post K ∧ (0 : Addr) ∉ pre K ∧ (0 : Addr) ∉ post K ∧ (pre K ++ post K).Nodup ∧ p ≠ x ∧ x ∉ u.inorder ∧
      p ∉ pre K ∧ p ∉ post K ∧ (u.top ≠ 0 → u.top ∉ pre K ∧ u.top ∉ post K) := by
    cases d1 <;> cases d2 <;> simp only [pre, post, List.nodup_append, List.nodup_cons, List.mem_append, List.mem_cons, List.cons_append, List.append_assoc, List.mem_singleton] at a6 a7 a8 ⊢ <;> grind
  obtain ⟨f1, f2, f3, f4, f5, f6, f7, f8, f9, f10, f11, f12⟩ := hfacts
  have hu : u.top ≠ x := top_ne a4 f9
  have hu2 : u.top ∉ pre K ∧ u.top ∉ post K := by
    by_cases hz : u.top = 0
    · rw [hz]; exact ⟨f5, f6⟩
    · exact f12 hz
  refine ⟨l1.aug e1 e2 e3, by rw [e1]; exact l2, hg0, a4, ⟨f1, f2⟩, ⟨f3, f4⟩, ⟨f5, f6⟩, f7, ?_, ?_, ?_, ?_⟩ <;> first | rw [e2] | rw [e3]
  all_goals rcases l3 with ⟨b1, b2⟩ | ⟨b1, b2⟩ <;>
    first
    | (rw [b1]; assumption)
    | (rw [b2]; assumption)
    | (rw [b1]; exact ⟨f10, f11⟩)
    | (rw [b2]; exact ⟨f10, f11⟩)

/-- Rebalancing after an insertion does not look at what the new node keeps. -/
theorem fixup_sim {x : Addr} : ∀ (m : Nat) {h h' : Heap Int} {n : Addr} {K : Ctx} (f : Addr → Int), Climb h x K n → (∀ b, b ≠ x → f b = h.aug b) → fixup (callbacks E fuel) m h n = some h' →
    ∃ f', fixup (callbacks E fuel) m { h with aug := f } n = some { h' with aug := f' } ∧ ∀ b, b ≠ x → f' b = h'.aug b
  | 0, _, _, _, _, _, _, _, e => by simp [fixup] at e
  | m + 1, h, h', n, K, f, hc, hf, e => by
    have hc0 := hc
    obtain ⟨a1, a2, a3, a4, a5, a6, a7, a8, a9, a10, a11, a12⟩ := hc
    rw [fixup] at e ⊢
    rw [if_neg a3] at e ⊢
    dsimp only at e ⊢
    rw [a2] at e ⊢
    by_cases hp0 : up K = 0
    · rw [if_pos hp0] at e ⊢
      cases e
      exact ⟨f, rfl, hf⟩
    · rw [if_neg hp0] at e ⊢
      cases K with
      | nil => exact absurd rfl hp0
      | cons fr K =>
        obtain ⟨d1, p, c1, s⟩ := fr
        rw [show Rbtree.up (⟨d1, p, c1, s⟩ :: K) = p from rfl] at e ⊢
        by_cases hb : h.black p = true
        · rw [if_pos hb] at e ⊢
          cases e
          exact ⟨f, rfl, hf⟩
        · rw [if_neg hb] at e ⊢
          have hpp : h.par p = Rbtree.up K := by
            cases d1 <;> obtain ⟨_, q, _⟩ := a1 <;> rw [upq_zero] at q <;> exact q
          rw [hpp] at e ⊢
          by_cases hg0 : Rbtree.up K = 0
          · rw [if_pos hg0] at e; simp at e
          · rw [if_neg hg0] at e ⊢
            cases K with
            | nil => exact absurd rfl hg0
            | cons fr K =>
              obtain ⟨d2, g, c2, u⟩ := fr
              rw [show Rbtree.up (⟨d2, g, c2, u⟩ :: K) = g from rfl] at e hpp ⊢
              have hparg : h.par g = Rbtree.up K := by
                cases d1 <;> cases d2 <;> obtain ⟨_, _, _, _, _, q, _⟩ := a1 <;> rw [upq_zero] at q <;> exact q
              -- what the addresses are not
              have hne : p ≠ x ∧ g ≠ x ∧ s.top ≠ x ∧ u.top ≠ x ∧ p ≠ g ∧ n ≠ p ∧ n ≠ g ∧ u.top ≠ p ∧ s.top ≠ p ∧ s.top ≠ g ∧ p ≠ 0 ∧ g ≠ 0 ∧ h.left n ≠ g ∧ h.right n ≠ g ∧ Rbtree.up K ≠ g ∧ u.top ≠ g := by
                have hp0 : p ≠ 0 := hp0
                have hg0 : g ≠ 0 := hg0
                have hnpu : Rbtree.up K = 0 ∨ Rbtree.up K ∈ pre K ∨ Rbtree.up K ∈ post K := by
                  cases K with
                  | nil => exact Or.inl rfl
                  | cons f K => exact Or.inr up_mem
                have hs : ∀ y, y ≠ 0 → y ∉ s.inorder → s.top ≠ y := fun y => top_ne
                have hu : ∀ y, y ≠ 0 → y ∉ u.inorder → u.top ≠ y := fun y => top_ne
                cases d1 <;> cases d2 <;> simp only [pre, post, List.nodup_append, List.nodup_cons, List.mem_append, List.mem_cons, List.cons_append, List.append_assoc, List.mem_singleton] at a5 a6 a7 a8 a11 a12 <;> grind
              obtain ⟨n1, n2, n3, n4, n5, n6, n7, n8, n9, n10, n11, n12, n13, n14, n15, n16⟩ := hne
              by_cases ht : h.right g ≠ p
              · rw [if_pos ht] at e ⊢
                have hd : d2 = true := by
                  cases d2 with
                  | true => rfl
                  | false => exfalso; cases d1 <;> obtain ⟨_, _, _, _, _, _, _, q, _⟩ := a1 <;> exact ht q
                subst hd
                have hlg : h.left g = p ∧ h.right g = u.top := by
                  cases d1 <;> obtain ⟨_, _, _, _, _, _, q1, q2, _⟩ := a1 <;> exact ⟨q1, q2⟩
                by_cases hr : h.right g ≠ 0 ∧ h.black (h.right g) = false
                · rw [if_pos hr] at e ⊢
                  exact fixup_sim m (h := ((h.setBlack (h.right g) true).setBlack p true).setBlack g false) f (hc0.up rfl rfl rfl) hf e
                · rw [if_neg hr] at e ⊢
                  by_cases hn : n = h.right p
                  · rw [if_pos hn] at e ⊢
                    cases e1 : leftRotate (callbacks E fuel) h p none (some true) with
                    | none => simp [e1] at e
                    | some r1 =>
                      obtain ⟨h1, ch1⟩ := r1
                      simp only [e1, Option.map_some, Option.bind_eq_bind, Option.bind_some] at e
                      have hlp : h.left p ≠ x := by
                        cases d1 with
                        | true =>
                          obtain ⟨_, _, q1, q2, _⟩ := a1
                          rw [q1, hn, q2]; exact n3
                        | false => obtain ⟨_, _, q1, q2, _⟩ := a1; rw [q1]; exact n3
                      obtain ⟨⟨f1, s1, s2⟩, L1, R1, P1⟩ := leftRotate_sim f hf e1 n1 hlp (by rw [← hn]; exact a9) (by rw [← hn]; exact n6) (by rw [hpp]; exact n5.symm)
                      rw [hpp, ← hn, hlg.1] at L1 R1
                      rw [← hn] at P1
                      have hL1 : h1.left g = n := by rw [L1 g]; simp [n12, n7.symm]
                      have hR1 : h1.right g = u.top := by rw [R1 g]; simp [n7.symm, n5.symm, hlg.2]
                      have hR2 : h1.right n = h.right n := by rw [R1 n]; simp [n7, n6]
                      have hP1 : h1.par g = Rbtree.up K := by rw [P1 g n5.symm n7.symm n13.symm, hparg]
                      cases e2 : rightRotate (callbacks E fuel) h1 g (some false) (some true) with
                      | none => simp [e2] at e
                      | some r2 =>
                        obtain ⟨h2, ch2⟩ := r2
                        simp only [e2, Option.map_some, Option.some.injEq] at e
                        obtain ⟨⟨f2, t1, t2⟩, _⟩ := rightRotate_sim f1 s2 e2 n2 (by rw [hR1]; exact n4) (by rw [hL1, hR2]; exact a10) (by rw [hL1]; exact n7) (by rw [hP1]; exact n15)
                        refine ⟨f2, ?_, by rw [← e]; exact t2⟩
                        simp only [s1, Option.map_some, Option.bind_eq_bind, Option.bind_some, t1]
                        rw [← e]
                  · rw [if_neg hn] at e ⊢
                    simp only [Option.bind_eq_bind, Option.bind_some] at e
                    have hrp : h.right p ≠ x := by
                      cases d1 with
                      | true => obtain ⟨_, _, q1, q2, _⟩ := a1; rw [q2]; exact n3
                      | false => obtain ⟨_, _, q1, q2, _⟩ := a1; exact absurd q2.symm hn
                    cases e2 : rightRotate (callbacks E fuel) h g (some false) (some true) with
                    | none => simp [e2] at e
                    | some r2 =>
                      obtain ⟨h2, ch2⟩ := r2
                      simp only [e2, Option.map_some, Option.some.injEq] at e
                      obtain ⟨⟨f2, t1, t2⟩, _⟩ := rightRotate_sim f hf e2 n2 (by rw [hlg.2]; exact n4) (by rw [hlg.1]; exact hrp) (by rw [hlg.1]; exact n5) (by rw [hparg]; exact n15)
                      refine ⟨f2, ?_, by rw [← e]; exact t2⟩
                      simp only [Option.bind_eq_bind, Option.bind_some, t1, Option.map_some]
                      rw [← e]
              · rw [if_neg ht] at e ⊢
                have hd : d2 = false := by
                  cases d2 with
                  | false => rfl
                  | true => exfalso; cases d1 <;> obtain ⟨_, _, _, _, _, _, _, q, _⟩ := a1 <;> exact ht (by rw [q]; exact n8)
                subst hd
                have hlg : h.left g = u.top ∧ h.right g = p := by
                  cases d1 <;> obtain ⟨_, _, _, _, _, _, q1, q2, _⟩ := a1 <;> exact ⟨q1, q2⟩
                by_cases hr : h.left g ≠ 0 ∧ h.black (h.left g) = false
                · rw [if_pos hr] at e ⊢
                  exact fixup_sim m (h := ((h.setBlack (h.left g) true).setBlack p true).setBlack g false) f (hc0.up rfl rfl rfl) hf e
                · rw [if_neg hr] at e ⊢
                  by_cases hn : n = h.left p
                  · rw [if_pos hn] at e ⊢
                    cases e1 : rightRotate (callbacks E fuel) h p none (some true) with
                    | none => simp [e1] at e
                    | some r1 =>
                      obtain ⟨h1, ch1⟩ := r1
                      simp only [e1, Option.map_some, Option.bind_eq_bind, Option.bind_some] at e
                      have hlp : h.right p ≠ x := by
                        cases d1 with
                        | false =>
                          obtain ⟨_, _, q1, q2, _⟩ := a1
                          rw [q2, hn, q1]; exact n3
                        | true => obtain ⟨_, _, q1, q2, _⟩ := a1; rw [q2]; exact n3
                      obtain ⟨⟨f1, s1, s2⟩, L1, R1, P1⟩ := rightRotate_sim f hf e1 n1 hlp (by rw [← hn]; exact a10) (by rw [← hn]; exact n6) (by rw [hpp]; exact n5.symm)
                      rw [hpp, ← hn, hlg.1] at L1 R1
                      rw [← hn] at P1
                      have hL1 : h1.left g = u.top := by rw [L1 g]; simp [n12, n7.symm, n5.symm, n8, hlg.1]
                      have hR1 : h1.right g = n := by rw [R1 g]; simp [n12, n7.symm, n5.symm, n8]
                      have hR2 : h1.left n = h.left n := by rw [L1 n]; simp [n7, n6]
                      have hP1 : h1.par g = Rbtree.up K := by rw [P1 g n5.symm n7.symm n14.symm, hparg]
                      cases e2 : leftRotate (callbacks E fuel) h1 g (some false) (some true) with
                      | none => simp [e2] at e
                      | some r2 =>
                        obtain ⟨h2, ch2⟩ := r2
                        simp only [e2, Option.map_some, Option.some.injEq] at e
                        obtain ⟨⟨f2, t1, t2⟩, _⟩ := leftRotate_sim f1 s2 e2 n2 (by rw [hL1]; exact n4) (by rw [hR1, hR2]; exact a9) (by rw [hR1]; exact n7) (by rw [hP1]; exact n15)
                        refine ⟨f2, ?_, by rw [← e]; exact t2⟩
                        simp only [s1, Option.map_some, Option.bind_eq_bind, Option.bind_some, t1]
                        rw [← e]
                  · rw [if_neg hn] at e ⊢
                    simp only [Option.bind_eq_bind, Option.bind_some] at e
                    have hrp : h.left p ≠ x := by
                      cases d1 with
                      | false => obtain ⟨_, _, q1, q2, _⟩ := a1; rw [q1]; exact n3
                      | true => obtain ⟨_, _, q1, q2, _⟩ := a1; exact absurd q1.symm hn
                    cases e2 : leftRotate (callbacks E fuel) h g (some false) (some true) with
                    | none => simp [e2] at e
                    | some r2 =>
                      obtain ⟨h2, ch2⟩ := r2
                      simp only [e2, Option.map_some, Option.some.injEq] at e
                      obtain ⟨⟨f2, t1, t2⟩, _⟩ := leftRotate_sim f hf e2 n2 (by rw [hlg.1]; exact n4) (by rw [hlg.2]; exact hrp) (by rw [hlg.2]; exact n5) (by rw [hparg]; exact n15)
                      refine ⟨f2, ?_, by rw [← e]; exact t2⟩
                      simp only [Option.bind_eq_bind, Option.bind_some, t1, Option.map_some]
                      rw [← e]

theorem fixup_good {L : List Addr} : ∀ (m : Nat) {h h' : Heap Int} {n : Addr}, Good E h L → n ∈ L → fixup (callbacks E fuel) m h n = some h' → Good E h' L
  | 0, _, _, _, _, _, e => by simp [fixup] at e
  | m + 1, h, h', n, hg, hn, e => by
    rw [fixup] at e
    by_cases h0 : n = 0
    · rw [if_pos h0] at e; cases e; exact hg
    · rw [if_neg h0] at e
      dsimp only at e
      by_cases hp0 : h.par n = 0
      · rw [if_pos hp0] at e; cases e; exact hg.paint hn true
      · rw [if_neg hp0] at e
        have hp := hg.par hn hp0
        by_cases hb : h.black (h.par n) = true
        · rw [if_pos hb] at e; cases e; exact hg
        · rw [if_neg hb] at e
          by_cases hg0 : h.par (h.par n) = 0
          · rw [if_pos hg0] at e; simp at e
          · rw [if_neg hg0] at e
            have hgp := hg.par hp hg0
            generalize h.par n = p at *
            generalize h.par p = g at *
            by_cases ht : h.right g ≠ p
            · rw [if_pos ht] at e
              by_cases hr : h.right g ≠ 0 ∧ h.black (h.right g) = false
              · rw [if_pos hr] at e
                exact fixup_good m (((hg.paint (hg.right hgp hr.1) true).paint hp true).paint hgp false) hgp e
              · rw [if_neg hr] at e
                by_cases hn : n = h.right p
                · rw [if_pos hn] at e
                  obtain ⟨h1, e1, e⟩ := Option.bind_eq_some_iff.1 e
                  obtain ⟨r1, e1', rfl⟩ := Option.map_eq_some_iff.1 e1
                  obtain ⟨r, e2, rfl⟩ := Option.map_eq_some_iff.1 e
                  exact ((hg.leftRotate (ch := r1.2) hp e1').1.rightRotate (ch := r.2) hgp e2).1
                · rw [if_neg hn] at e
                  obtain ⟨r, e2, rfl⟩ := Option.map_eq_some_iff.1 e
                  exact (hg.rightRotate (ch := r.2) hgp e2).1
            · rw [if_neg ht] at e
              by_cases hr : h.left g ≠ 0 ∧ h.black (h.left g) = false
              · rw [if_pos hr] at e
                exact fixup_good m (((hg.paint (hg.left hgp hr.1) true).paint hp true).paint hgp false) hgp e
              · rw [if_neg hr] at e
                by_cases hn : n = h.left p
                · rw [if_pos hn] at e
                  obtain ⟨h1, e1, e⟩ := Option.bind_eq_some_iff.1 e
                  obtain ⟨r1, e1', rfl⟩ := Option.map_eq_some_iff.1 e1
                  obtain ⟨r, e2, rfl⟩ := Option.map_eq_some_iff.1 e
                  exact ((hg.rightRotate (ch := r1.2) hp e1').1.leftRotate (ch := r.2) hgp e2).1
                · rw [if_neg hn] at e
                  obtain ⟨r, e2, rfl⟩ := Option.map_eq_some_iff.1 e
                  exact (hg.leftRotate (ch := r.2) hgp e2).1

/-! ### Insertion -/

/-- No interval below node `x` in the tree ends after that of `x`. -/
def Tops (E : Ends) (x : Addr) (t : Tree) : Prop := ∀ k l c r, t = plug k (.node l x c r) → ∀ y, y ∈ l.inorder ∨ y ∈ r.inorder → E.hi y ≤ E.hi x

/-- Where a new interval is to stand: behind those that do not start later. -/
def insertSpec (E : Ends) (x : Addr) (L : List Addr) : List Addr := L.filter (fun a => decide (E.lo a ≤ E.lo x)) ++ x :: L.filter (fun a => decide (E.lo x < E.lo a))

theorem climb_start {h : Heap Int} {K : Ctx} {x : Addr} (hat : At h K (.node .nil x false .nil)) : Climb h x K x := by
  obtain ⟨hk, ⟨x1, x2, x3, x4, _⟩, hnd⟩ := hat
  have h0 := hk.ne_zero
  simp only [Tree.top] at x3 x4
  simp only [Tree.inorder, List.nil_append, List.nodup_append, List.nodup_cons, List.mem_append, List.mem_cons, List.mem_singleton] at hnd
  have z1 : (0 : Addr) ∉ pre K := fun hm => h0 0 (Or.inl hm) rfl
  have z2 : (0 : Addr) ∉ post K := fun hm => h0 0 (Or.inr hm) rfl
  refine ⟨links_zero hk, x2, x1, x1, ?_, ?_, ⟨z1, z2⟩, ?_, by rw [x3]; exact x1.symm, by rw [x4]; exact x1.symm, by rw [x3]; exact ⟨z1, z2⟩, by rw [x4]; exact ⟨z1, z2⟩⟩
  · grind
  · grind
  · simp only [List.nodup_append]; grind

theorem link_aug (h : Heap Int) (p : Addr) (l : Link) (x : Addr) : (link h p l x).aug = h.aug := by cases l <;> rfl
theorem link_with (h : Heap Int) (f : Addr → Int) (p : Addr) (l : Link) (x : Addr) : link { h with aug := f } p l x = { link h p l x with aug := f } := by cases l <;> rfl

/-- C29, partial. Insertion puts the node where it belongs and keeps the order, the red-black rules and the leftmost node; the maxima are kept exactly
if no interval that ends up below the new one ends after it. (That some do happens only when the new node is rotated up right away, see
`segtree_query_violated`.) -/
theorem insert_maxed_partial {h : Heap Int} {t : Tree} {x : Addr} (hh : Holds h t) (hrb : RedBlack t) (hs : Sorted E t.inorder) (hm : Maxed E h t) (hx : x ≠ 0) (hxt : x ∉ t.inorder) (hf : t.height < fuel) :
    ∃ h' lm' t', insert E fuel h (t.inorder.headD 0) x = some (h', lm') ∧ Holds h' t' ∧ RedBlack t' ∧ t'.inorder = insertSpec E x t.inorder ∧
      Sorted E t'.inorder ∧ lm' = t'.inorder.headD 0 ∧ (Maxed E h' t' ↔ Tops E x t') := by
  obtain ⟨f, K, w1, w2, w3, w4, w5⟩ := walk_at (E := E) (x := x) fuel [] t h (at_iff.2 hh) trivial hm.loc hf (by simp [pre]) (by simp [post]) hs
  simp only [linkOf, Rbtree.up, pre, List.isEmpty_nil, plug] at w1 w2
  subst w2
  have hh1 : Holds ({ h with aug := f } : Heap Int) (plug K .nil) := hh.frame (fun a _ => aug_agree _ _ a) rfl
  obtain ⟨h3, t3, e3, q1, q2, q3, _⟩ := insertNode_at (callbacks E fuel) hh1 hrb hx hxt hf
  obtain ⟨hA, _⟩ := link_at (at_iff.2 hh1) hx hxt
  have hin : (plug K .nil).inorder = pre K ++ post K := by simp [inorder_plug, Tree.inorder]
  rw [hin] at hxt hs ⊢
  have hxt' : x ∉ pre K ∧ x ∉ post K := by simpa using hxt
  obtain ⟨fl1, fl2⟩ := filter_split (A := pre K) (B := post K) (p := fun a => decide (E.lo a ≤ E.lo x)) (q := fun a => decide (E.lo x < E.lo a))
    (fun a ha => by have := w4 a ha; simp; omega) (fun a ha => by have := w5 a ha; simp; omega)
  have hspec : insertSpec E x (pre K ++ post K) = pre K ++ x :: post K := by rw [insertSpec, fl1, fl2]
  -- the run in which the kept value of the new node was set before
  obtain ⟨f', s1, s2⟩ := fixup_sim (x := x) fuel (upd f x (E.hi x)) (climb_start hA) (fun b hb => by rw [link_aug]; exact upd_ne hb) e3
  have hgood : Good E { link { h with aug := f } (Rbtree.up K) (linkOf K) x with aug := upd f x (E.hi x) } (pre K ++ x :: post K) := by
    refine ⟨plug K (.node .nil x false .nil), at_iff.1 (at_aug _ hA), by simp [inorder_plug, Tree.inorder], ?_⟩
    rw [loc_plug]
    show LocC E (upd f x (E.hi x)) K (tv (upd f x (E.hi x)) _) ∧ Loc E (upd f x (E.hi x)) _
    refine ⟨?_, ?_, trivial, trivial⟩
    · rw [tv, upd_eq]
      exact LocC.congr w3 (fun b hb => upd_ne (by rintro rfl; exact hb.elim hxt'.1 hxt'.2))
    · rw [upd_eq]; rfl
  obtain ⟨t4, v1, v2, v3⟩ := fixup_good fuel hgood (by simp) s1
  have ht : t4 = t3 := rep_unique v1.2.1 (q1.frame (h' := { h3 with aug := f' }) (fun a _ => aug_agree _ _ a) rfl).2.1 (v1.1.symm.trans q1.1)
  subst ht
  have hm4 : x ∈ t4.inorder := by rw [q2]; simp
  refine ⟨{ h3 with aug := upd h3.aug x (E.hi x) }, if (pre K).isEmpty then x else (pre K ++ post K).headD 0, t4, ?_, q1.frame (fun a _ => aug_agree _ _ a) rfl, q3, q2.trans hspec.symm, ?_, ?_, ?_⟩
  · unfold insert
    rw [w1, Option.bind_some]
    exact congrArg (Option.map _) e3
  · rw [q2]
    have hs' := List.pairwise_append.1 hs
    refine List.pairwise_append.2 ⟨hs'.1, List.pairwise_cons.2 ⟨fun b hb => Int.le_of_lt (w5 b hb), hs'.2.1⟩, fun a ha b hb => ?_⟩
    rcases List.mem_cons.1 hb with rfl | hb
    · exact w4 a ha
    · exact hs'.2.2 a ha b hb
  · rw [q2]
    cases hp : pre K with
    | nil => simp
    | cons a A => simp
  · have hmax : Maxed E { h3 with aug := f' } t4 := Loc.maxed (h := { h3 with aug := f' }) v3
    constructor
    · rintro hM k l c r rfl y hy
      have := (maxed_plug k _ hM).1.1 y (by simp only [Tree.inorder, List.mem_append, List.mem_cons]; grind)
      rw [show ({ h3 with aug := upd h3.aug x (E.hi x) } : Heap Int).aug x = E.hi x from upd_eq] at this
      exact this
    · intro hT
      obtain ⟨k, l, c, r, rfl⟩ := exists_ctx t4 hm4
      obtain ⟨m1, ⟨y, m2, m3⟩, _⟩ := (maxed_plug k _ hmax).1
      have hfx : f' x = E.hi x := by
        have h1 : E.hi x ≤ f' x := m1 x (by simp [Tree.inorder])
        have h2 : E.hi y ≤ E.hi x := by
          simp only [Tree.inorder, List.mem_append, List.mem_cons] at m2
          rcases m2 with hy | rfl | hy
          · exact hT k l c r rfl y (Or.inl hy)
          · exact Int.le_refl _
          · exact hT k l c r rfl y (Or.inr hy)
        have m3 : E.hi y = f' x := m3
        omega
      have hff : upd h3.aug x (E.hi x) = f' := by
        funext b
        by_cases hb : b = x
        · subst hb; rw [upd_eq, hfx]
        · rw [upd_ne hb, s2 b hb]
      rw [hff]; exact hmax

/-! ### Histories -/

/-- Calls that change the tree. -/
inductive Op where
  | insert (x : Addr)
  | delete (x : Addr)

def Op.run (E : Ends) (fuel : Nat) (s : Heap Int × Addr) : Op → Option (Heap Int × Addr)
  | .insert x => Segtree.insert E fuel s.1 s.2 x
  | .delete x => Segtree.delete E fuel s.1 s.2 x

def Op.spec (E : Ends) (L : List Addr) : Op → List Addr
  | .insert x => insertSpec E x L
  | .delete x => L.erase x

/-- A history of calls. -/
def runAll (E : Ends) (fuel : Nat) : List Op → Heap Int × Addr → Option (Heap Int × Addr)
  | [], s => some s
  | o :: os, s => (o.run E fuel s).bind (runAll E fuel os)

def specAll (E : Ends) : List Op → List Addr → List Addr
  | [], L => L
  | o :: os, L => specAll E os (o.spec E L)

/-- What a caller may do: insert a node that is not in the tree, delete one that is; and, after every insertion, no interval below the new node ends
after it. -/
def okAll (E : Ends) (fuel : Nat) : List Op → Heap Int × Addr → List Addr → Prop
  | [], _, _ => True
  | o :: os, s, L =>
    (match o with
      | .insert x => x ≠ 0 ∧ x ∉ L ∧ ∀ s', o.run E fuel s = some s' → ∀ t', Holds s'.1 t' → Tops E x t'
      | .delete x => x ∈ L) ∧
    ∀ s', o.run E fuel s = some s' → okAll E fuel os s' (o.spec E L)

theorem length_insertSpec (E : Ends) (x : Addr) (L : List Addr) : (insertSpec E x L).length = L.length + 1 := by
  have e := List.length_eq_countP_add_countP (fun a => decide (E.lo a ≤ E.lo x)) (l := L)
  simp only [insertSpec, List.length_append, List.length_cons]
  rw [← List.countP_eq_length_filter, ← List.countP_eq_length_filter]
  have : L.countP (fun a => decide (E.lo x < E.lo a)) = L.countP (fun a => decide ¬ (decide (E.lo a ≤ E.lo x) = true)) := by
    congr 1; funext a; simp only [decide_eq_true_eq]; congr 1; simp [Int.not_le]
  omega

theorem history_from : ∀ (ops : List Op) {h : Heap Int} {t : Tree}, Holds h t → RedBlack t → Sorted E t.inorder → Maxed E h t → okAll E fuel ops (h, t.inorder.headD 0) t.inorder →
    2 * Nat.log2 (t.size + ops.length + 1) < fuel →
    ∃ h' lm' t', runAll E fuel ops (h, t.inorder.headD 0) = some (h', lm') ∧ Holds h' t' ∧ RedBlack t' ∧ t'.inorder = specAll E ops t.inorder ∧ Sorted E t'.inorder ∧ Maxed E h' t' ∧ lm' = t'.inorder.headD 0 ∧
      t'.height < fuel
  | [], h, t, hh, hrb, hs, hm, _, hf => ⟨h, _, t, rfl, hh, hrb, rfl, hs, hm, rfl, by
      have := redBlack_height hrb
      simp only [List.length_nil, Nat.add_zero] at hf
      omega⟩
  | o :: os, h, t, hh, hrb, hs, hm, hok, hf => by
    have hmono : ∀ {a b : Nat}, a ≤ b → 0 < a → Nat.log2 a ≤ Nat.log2 b := by
      intro a b hab ha
      exact (Nat.le_log2 (by omega)).2 (Nat.le_trans (Nat.log2_self_le (by omega)) hab)
    simp only [List.length_cons] at hf
    have hht := redBlack_height hrb
    have hm1 := hmono (a := t.size + 1) (b := t.size + (os.length + 1) + 1) (by omega) (by omega)
    obtain ⟨h', lm', t', e, q1, q2, q3, q4, q5, q6, q7⟩ : ∃ h' lm' t', o.run E fuel (h, t.inorder.headD 0) = some (h', lm') ∧ Holds h' t' ∧ RedBlack t' ∧ t'.inorder = o.spec E t.inorder ∧ Sorted E t'.inorder ∧
        Maxed E h' t' ∧ lm' = t'.inorder.headD 0 ∧ t'.size ≤ t.size + 1 := by
      cases o with
      | insert x =>
        obtain ⟨h', lm', t', e, r1, r2, r3, r4, r5, r6⟩ := insert_maxed_partial hh hrb hs hm hok.1.1 hok.1.2.1 (fuel := fuel) (by omega)
        refine ⟨h', lm', t', e, r1, r2, r3, r4, r6.2 (hok.1.2.2 _ e t' r1), r5, ?_⟩
        simp only [Tree.size, r3, length_insertSpec]; omega
      | delete x =>
        obtain ⟨h', lm', t', e, r1, r2, r3, r4, r5, r6⟩ := delete_maxed hh hrb hs hm hok.1 (fuel := fuel) (by omega)
        refine ⟨h', lm', t', e, r1, r2, r3, r4, r5, r6, ?_⟩
        have := List.length_erase_le (a := x) (l := t.inorder)
        simp only [Tree.size, r3]; omega
    subst q6
    have hm2 := hmono (a := t'.size + os.length + 1) (b := t.size + (os.length + 1) + 1) (by omega) (by omega)
    obtain ⟨h2, lm2, t2, e2, w⟩ := history_from os q1 q2 q4 q5 (by rw [q3]; have := hok.2 _ e; rw [q3] at this; exact this) (by omega)
    refine ⟨h2, lm2, t2, ?_, w.1, w.2.1, ?_, w.2.2.2⟩
    · rw [runAll, e, Option.bind_some, e2]
    · rw [w.2.2.1, q3]; rfl

/-- **C29, partial, for whole histories**: from an empty tree, after any sequence of insertions and deletions in which no insertion leaves below the new
node an interval that ends after it, the tree holds the intervals inserted and not deleted, in the order of their starts; the first-overlap search
returns the first of them that meets the query, and the iteration enumerates precisely those that meet it, in order. Missing: the other insertions,
after which queries can miss intervals (`segtree_query_violated`). -/
theorem segtree_history_partial (ops : List Op) {h : Heap Int} (h0 : h.root = 0) (hok : okAll E fuel ops (h, 0) []) (hf : 2 * Nat.log2 (ops.length + 1) < fuel) :
    ∃ s, runAll E fuel ops (h, 0) = some s ∧ (specAll E ops []).Pairwise (fun a b => E.lo a ≤ E.lo b) ∧ ∀ start last,
      first E start last fuel s.1 s.2 = some ((hits E start last (specAll E ops [])).headD 0) ∧
      (first E start last fuel s.1 s.2).bind (visits E start last s.1 fuel ((specAll E ops []).length + 1)) = some (hits E start last (specAll E ops [])) := by
  obtain ⟨h', lm', t', e, q1, q2, q3, q4, q5, q6, q7⟩ := history_from (E := E) (fuel := fuel) ops (t := .nil) (h := h) ⟨h0, trivial, by simp [Tree.inorder]⟩ ⟨rfl, 0, rfl⟩ (by simp [Sorted, Tree.inorder]) trivial hok
    (by simpa [Tree.size, Tree.inorder] using hf)
  refine ⟨(h', lm'), e, ?_, fun start last => ?_⟩
  · have := q4; rw [q3] at this; exact this
  · have := segtree_query_partial (start := start) (last := last) q1 q4 q5 q6 (Nat.le_of_lt q7) (by omega)
    rw [Tree.size, q3] at this
    exact this

/-! ### Concrete cases -/

/-- A history with rotations and deletions after which a query is exact. -/
def exOps : List Op := [.insert 10, .insert 5, .insert 15, .insert 3, .insert 1, .insert 20, .delete 5, .insert 30, .delete 10]

example : (runAll exE 10 exOps (mem0, 0)).bind (fun s => (first exE 90 97 10 s.1 s.2).bind (visits exE 90 97 s.1 10 10)) = some [1, 3] := by decide +kernel
example : specAll exE exOps [] = [1, 3, 15, 20, 30] := by decide +kernel
example : (runAll exE 10 exOps (mem0, 0)).bind (fun s => (first exE 0 1000 10 s.1 s.2).bind (visits exE 0 1000 s.1 10 10)) = some [1, 3, 15, 20, 30] := by decide +kernel

/-- A state with two intervals meets the hypotheses of the deletion. -/
example : Holds exH exT ∧ RedBlack exT ∧ Sorted exE exT.inorder ∧ Maxed exE exH exT ∧ 5 ∈ exT.inorder ∧ exT.height ≤ 10 := by
  refine ⟨⟨rfl, ?_, by decide⟩, ⟨rfl, 1, 0, rfl, ⟨rfl, rfl, rfl, rfl⟩, ⟨rfl, rfl, rfl, rfl⟩⟩, ?_, ?_, by decide, by decide⟩
  · simp [exT, exH, Rep, Tree.top]
  · simp [exT, Tree.inorder, Sorted, exE]
  · simp [exT, exH, exE, Maxed, Tree.inorder]

/-- The tree in memory, read off from an address. -/
def readTree (h : Heap Int) : Nat → Addr → Tree
  | 0, _ => .nil
  | n + 1, a => if a = 0 then .nil else .node (readTree h n (h.left a)) a (h.black a) (readTree h n (h.right a))

theorem readTree_eq {h : Heap Int} : ∀ (n : Nat) {p : Addr} (t : Tree), Rep h p t → t.height ≤ n → readTree h n t.top = t
  | 0, _, .nil, _, _ => rfl
  | n + 1, _, .nil, _, _ => by simp [readTree, Tree.top]
  | 0, _, .node .., _, hn => by simp [Tree.height] at hn
  | n + 1, p, .node l a c r, ⟨x1, x2, x3, x4, x5, x6, x7⟩, hn => by
    simp only [Tree.height] at hn
    rw [show readTree h (n + 1) (Tree.node l a c r).top = if a = 0 then .nil else .node (readTree h n (h.left a)) a (h.black a) (readTree h n (h.right a)) from rfl, if_neg x1, x3, x4, x5, readTree_eq n l x6 (by omega), readTree_eq n r x7 (by omega)]

/-- The check of `Tops` on a tree. -/
def topsB (E : Ends) (x : Addr) : Tree → Bool
  | .nil => true
  | .node l a _ r => (decide (a ≠ x) || (l.inorder ++ r.inorder).all (fun y => decide (E.hi y ≤ E.hi x))) && topsB E x l && topsB E x r

theorem topsB_plug (E : Ends) (x : Addr) : ∀ (k : Ctx) (t : Tree), topsB E x (plug k t) = true → topsB E x t = true
  | [], _, h => h
  | ⟨d, a, c, s⟩ :: k, t, h => by
    cases d <;> have := topsB_plug E x k _ h <;> simp only [topsB, Bool.and_eq_true] at this <;> grind

theorem topsB_tops {E : Ends} {x : Addr} {t : Tree} (h : topsB E x t = true) : Tops E x t := by
  rintro k l c r rfl y hy
  have := topsB_plug E x k _ h
  simp only [topsB, Bool.and_eq_true, Bool.or_eq_true, decide_eq_true_eq, ne_eq, not_true, false_or, List.all_eq_true, List.mem_append] at this
  exact this.1.1 y hy

/-- The check of `okAll` by running the history. -/
def okB (E : Ends) (fuel : Nat) : List Op → Heap Int × Addr → List Addr → Bool
  | [], _, _ => true
  | o :: os, s, L =>
    match o.run E fuel s with
    | none => false
    | some s' =>
      (match o with
        | .insert x => decide (x ≠ 0) && decide (x ∉ L) && topsB E x (readTree s'.1 fuel s'.1.root) && decide ((readTree s'.1 fuel s'.1.root).height < fuel)
        | .delete x => decide (x ∈ L)) && okB E fuel os s' (o.spec E L)

theorem readTree_height {h : Heap Int} : ∀ (n : Nat) {p : Addr} (t : Tree), Rep h p t → (readTree h n t.top).height < n → t.height ≤ n
  | 0, _, _, _, hn => by omega
  | n + 1, _, .nil, _, _ => by simp [Tree.height]
  | n + 1, p, .node l a c r, ⟨x1, x2, x3, x4, x5, x6, x7⟩, hn => by
    rw [show readTree h (n + 1) (Tree.node l a c r).top = if a = 0 then .nil else .node (readTree h n (h.left a)) a (h.black a) (readTree h n (h.right a)) from rfl, if_neg x1, x3, x4, Tree.height] at hn
    have := readTree_height n l x6 (by omega)
    have := readTree_height n r x7 (by omega)
    simp only [Tree.height]; omega

theorem okB_okAll : ∀ (ops : List Op) (s : Heap Int × Addr) (L : List Addr), okB E fuel ops s L = true → okAll E fuel ops s L
  | [], _, _, _ => trivial
  | o :: os, s, L, hk => by
    unfold okB at hk
    cases e : o.run E fuel s with
    | none => rw [e] at hk; cases hk
    | some s' =>
      rw [e] at hk
      simp only [Bool.and_eq_true] at hk
      refine ⟨?_, fun s2 e2 => ?_⟩
      · cases o with
        | insert x =>
          simp only [Bool.and_eq_true, decide_eq_true_eq] at hk
          refine ⟨hk.1.1.1.1, hk.1.1.1.2, fun s2 e2 t' hT => ?_⟩
          rw [e] at e2; cases e2
          have hh := hk.1.2
          have ht := hk.1.1.2
          rw [← hT.1.symm] at hh ht
          rw [readTree_eq fuel t' hT.2.1 (readTree_height fuel t' hT.2.1 hh)] at ht
          exact topsB_tops ht
        | delete x => simpa using hk.1
      · rw [e] at e2; cases e2
        exact okB_okAll os _ _ hk.2

/-- The history above, with its rotations and deletions, meets the hypotheses of `segtree_history_partial`. -/
example : okAll exE 10 exOps (mem0, 0) [] ∧ (mem0 : Heap Int).root = 0 ∧ 2 * Nat.log2 (exOps.length + 1) < 10 := ⟨okB_okAll _ _ _ (by decide +kernel), rfl, by decide⟩

end Bfdev.Segtree

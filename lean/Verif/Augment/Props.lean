import Verif.Augment.Balance
/-!
Property C105 (augmented trees).
-/
namespace Bfdev.Augment
open Rbtree

variable {α : Type} [DecidableEq α] {E : Comb α} [Lawful E] {fuel : Nat}

omit [DecidableEq α] in
/-- The summary of a sequence, taken apart at any of its nodes. -/
theorem total_middle (l : List Addr) (a : Addr) (r : List Addr) : total E (l ++ a :: r) = some (E a (total E l) (total E r)) := by
  induction l with
  | nil => rfl
  | cons b l ih =>
    show some (E b none (total E (l ++ a :: r))) = some (E a (some (E b none (total E l))) (total E r))
    rw [ih, Lawful.rot (E := E)]

omit [DecidableEq α] in
theorem loc_total {f : Addr → α} : ∀ {t : Tree}, Loc E f t → tv f t = total E t.inorder
  | .nil, _ => rfl
  | .node l a c r, ⟨h1, h2, h3⟩ => by
    show some (f a) = total E (l.inorder ++ a :: r.inorder)
    rw [total_middle, ← loc_total h2, ← loc_total h3, h1]

omit [DecidableEq α] in
theorem summed_iff {f : Addr → α} : ∀ {t : Tree}, Summed E f t ↔ Loc E f t
  | .nil => Iff.rfl
  | .node l a c r => by
    constructor
    · rintro ⟨h1, h2, h3⟩
      have l2 := summed_iff.1 h2
      have l3 := summed_iff.1 h3
      refine ⟨?_, l2, l3⟩
      rw [Tree.inorder, total_middle] at h1
      rw [loc_total l2, loc_total l3]
      exact Option.some.inj h1
    · intro h
      exact ⟨loc_total h, summed_iff.2 h.2.1, summed_iff.2 h.2.2⟩

/-- C105, one insertion. -/
theorem insert_summed {cmp : Addr → Addr → Int} (o : Order cmp) {h : Heap α} {t : Tree} {x : Addr}
    (hh : Holds h t) (hrb : RedBlack t) (hs : Ascending cmp t.inorder) (hm : Summed E h.aug t) (hx : x ≠ 0) (hxt : x ∉ t.inorder) (hf : t.height < fuel) :
    (t.inorder.any (fun a => cmp x a == 0) = true → insert E fuel h x (cmp x) = some (h, false)) ∧
    (t.inorder.any (fun a => cmp x a == 0) = false → ∃ h' t', insert E fuel h x (cmp x) = some (h', true) ∧ Holds h' t' ∧ RedBlack t' ∧
      t'.inorder = t.inorder.filter (fun a => 0 < cmp x a) ++ x :: t.inorder.filter (fun a => cmp x a < 0) ∧ Summed E h'.aug t') := by
  rcases parent_holds (fuel := fuel) hh (o.fits hs x) (by omega) with ⟨e, a, ha, hz⟩ | ⟨link, p, lm, e, k, rfl, rfl, rfl, _, h1, h2⟩
  · refine ⟨fun _ => by rw [insert, e], fun hn => ?_⟩
    simp only [List.any_eq_false, beq_iff_eq] at hn
    exact absurd hz (hn a ha)
  · have h1 : ∀ a, a ∈ pre k → 0 < cmp x a := fun a ha => by have := h1 a ha; dsimp only at this; omega
    have h2 : ∀ a, a ∈ post k → cmp x a < 0 := fun a ha => by have := h2 a ha; dsimp only at this; omega
    have hin : (plug k .nil).inorder = pre k ++ post k := by simp [inorder_plug, Tree.inorder]
    refine ⟨fun hy => ?_, fun _ => ?_⟩
    · exfalso
      simp only [List.any_eq_true, beq_iff_eq, hin, List.mem_append] at hy
      obtain ⟨a, ha | ha, hz⟩ := hy
      · have := h1 a ha; omega
      · have := h2 a ha; omega
    · obtain ⟨hA, _⟩ := link_at (at_iff.2 hh) hx hxt
      have hx' : x ∉ pre k ∧ x ∉ post k := by rw [hin] at hxt; simpa using hxt
      have hlen := length_height k .nil
      simp only [Tree.height] at hlen
      obtain ⟨n, hOK, hRB, _⟩ := redBlack_plug k _ hrb
      have hn : n = 0 := hRB
      subst hn
      obtain ⟨f1, f2⟩ := filter_split (A := pre k) (B := post k) (p := fun a => decide (0 < cmp x a)) (q := fun a => decide (cmp x a < 0))
        (fun a ha => by have := h1 a ha; simp; omega) (fun a ha => by have := h2 a ha; simp; omega)
      rw [hin, f1, f2]
      -- the linked node with its own summary
      have hcomp : compute E (Rbtree.link h (up k) (linkOf k) x) x = E x none none := by
        obtain ⟨_, _, x3, x4, _⟩ := hA.2.1
        rw [compute, x3, x4]; rfl
      have hlc : LocC E h.aug k none := ((loc_plug k .nil).1 (summed_iff.1 hm)).1
      have hcong : ∀ a, a ∈ pre k ∨ a ∈ post k → upd h.aug x (E x none none) a = h.aug a := by
        intro a ha
        simp only [upd]
        rw [if_neg]
        rintro rfl
        exact ha.elim hx'.1 hx'.2
      obtain ⟨g, hg⟩ : ∃ g, g = ({ Rbtree.link h (up k) (linkOf k) x with aug := upd h.aug x (E x none none) } : Heap α) := ⟨_, rfl⟩
      have hgA : At g k (.node .nil x false .nil) := by rw [hg]; exact at_aug _ hA
      have hgaug : g.aug = upd h.aug x (E x none none) := by rw [hg]
      have hgood : Good E ((callbacks E fuel).doPropagate g (up k) 0) (plug k (.node .nil x false .nil)).inorder := by
        refine good_propagate hgA ?_ ?_ (by omega) rfl
        · rw [hgaug]
          exact ⟨by simp [upd, tv], trivial, trivial⟩
        · rw [hgaug]
          exact (LocC.congr hlc hcong).rest
      have hpin : (plug k (.node .nil x false .nil)).inorder = pre k ++ x :: post k := by simp [inorder_plug, Tree.inorder]
      rw [hpin] at hgood
      obtain ⟨h', t', e', q1, q2, q3, q4⟩ := fixup_at (callbacks E fuel) fuel k (h := (callbacks E fuel).doPropagate g (up k) 0) (at_aug _ hgA) (n := 0) (L := pre k ++ x :: post k)
        ⟨rfl, rfl, rfl, rfl⟩ hOK (by omega) hpin
      obtain ⟨t4, v1, v2, v3⟩ := fixup_good fuel hgood (by simp) e'
      have ht : t4 = t' := rep_unique v1.2.1 q1.2.1 (v1.1.symm.trans q1.1)
      subst ht
      refine ⟨h', t4, ?_, q1, q3, q2, summed_iff.2 v3⟩
      unfold insert
      rw [e]
      dsimp only
      rw [hcomp, link_aug, ← hg, e']; rfl

/-- C105, one deletion. -/
theorem delete_summed {h : Heap α} {t : Tree} {x : Addr} (hh : Holds h t) (hrb : RedBlack t) (hm : Summed E h.aug t) (hx : x ∈ t.inorder) (hf : t.height ≤ fuel) :
    ∃ h' t', delete E fuel h x = some h' ∧ Holds h' t' ∧ RedBlack t' ∧ t'.inorder = t.inorder.erase x ∧ Summed E h'.aug t' := by
  obtain ⟨h', t', e, q1, q2, q3, _⟩ := delete_correct (callbacks E fuel) hh hrb hx hf
  obtain ⟨t4, v1, v2, v3⟩ := delete_good hh hrb hx (summed_iff.1 hm) hf e
  have ht : t4 = t' := rep_unique v1.2.1 q1.2.1 (v1.1.symm.trans q1.1)
  subst ht
  exact ⟨h', t4, e, q1, q2, q3, summed_iff.2 v3⟩

/-- A call. -/
def run1 (cmp : Addr → Addr → Int) (E : Comb α) (fuel : Nat) (h : Heap α) : Op → Option (Heap α)
  | .insert x => (insert E fuel h x (cmp x)).map (·.1)
  | .delete x => delete E fuel h x

/-- A history of calls. -/
def run (cmp : Addr → Addr → Int) (E : Comb α) (fuel : Nat) : List Op → Heap α → Option (Heap α)
  | [], h => some h
  | o :: os, h => (run1 cmp E fuel h o).bind (run cmp E fuel os)

theorem step_summed {cmp : Addr → Addr → Int} (o : Order cmp) {h : Heap α} {t : Tree} {p : Op}
    (hh : Holds h t) (hrb : RedBlack t) (hs : Ascending cmp t.inorder) (hm : Summed E h.aug t) (hp : p.ok t.inorder) (hf : t.height < fuel) :
    ∃ h' t', run1 cmp E fuel h p = some h' ∧ Holds h' t' ∧ RedBlack t' ∧ t'.inorder = p.spec cmp t.inorder ∧ Ascending cmp t'.inorder ∧ t'.size ≤ t.size + 1 ∧ Summed E h'.aug t' := by
  -- the order and the size are those of the plain tree
  obtain ⟨_, t0, _, _, _, z3, z4, z5⟩ := step_correct (callbacks E fuel) o hh hrb hs hp hf
  have hz : ∀ {t' : Tree}, t'.inorder = p.spec cmp t.inorder → Ascending cmp t'.inorder ∧ t'.size ≤ t.size + 1 := by
    intro t' e
    rw [Tree.size, e, ← z3]
    exact ⟨z4, z5⟩
  cases p with
  | insert x =>
    obtain ⟨h1, h2⟩ := insert_summed (E := E) (fuel := fuel) o hh hrb hs hm hp.1 hp.2 hf
    cases hany : t.inorder.any (fun a => cmp x a == 0) with
    | true => exact ⟨h, t, by simp [run1, h1 hany], hh, hrb, by simp [Op.spec, hany], hs, by omega, hm⟩
    | false =>
      obtain ⟨h', t', e, q1, q2, q3, q4⟩ := h2 hany
      have e2 : t'.inorder = (Op.insert x).spec cmp t.inorder := by simp [Op.spec, hany, q3]
      exact ⟨h', t', by simp [run1, e], q1, q2, e2, (hz e2).1, (hz e2).2, q4⟩
  | delete x =>
    obtain ⟨h', t', e, q1, q2, q3, q4⟩ := delete_summed (fuel := fuel) hh hrb hm hp (Nat.le_of_lt hf)
    exact ⟨h', t', e, q1, q2, q3, (hz q3).1, (hz q3).2, q4⟩

theorem history_from {cmp : Addr → Addr → Int} (o : Order cmp) : ∀ (ops : List Op) {h : Heap α} {t : Tree},
    Holds h t → RedBlack t → Ascending cmp t.inorder → Summed E h.aug t → okAll cmp ops t.inorder → 2 * Nat.log2 (t.size + ops.length + 1) < fuel →
    ∃ h' t', run cmp E fuel ops h = some h' ∧ Holds h' t' ∧ RedBlack t' ∧ t'.inorder = specAll cmp ops t.inorder ∧ Summed E h'.aug t'
  | [], h, t, hh, hrb, _, hm, _, _ => ⟨h, t, rfl, hh, hrb, rfl, hm⟩
  | p :: ops, h, t, hh, hrb, hs, hm, hok, hf => by
    have hmono : ∀ {a b : Nat}, a ≤ b → 0 < a → Nat.log2 a ≤ Nat.log2 b := by
      intro a b hab ha
      exact (Nat.le_log2 (by omega)).2 (Nat.le_trans (Nat.log2_self_le (by omega)) hab)
    simp only [List.length_cons] at hf
    have hht := redBlack_height hrb
    have hm1 := hmono (a := t.size + 1) (b := t.size + (ops.length + 1) + 1) (by omega) (by omega)
    obtain ⟨h', t', e, q1, q2, q3, q4, q5, q6⟩ := step_summed (E := E) o (fuel := fuel) hh hrb hs hm hok.1 (by omega)
    have hm2 := hmono (a := t'.size + ops.length + 1) (b := t.size + (ops.length + 1) + 1) (by omega) (by omega)
    obtain ⟨h2, t2, e2, w1, w2, w3, w4⟩ := history_from o ops q1 q2 q4 q6 (by rw [q3]; exact hok.2) (by omega)
    refine ⟨h2, t2, ?_, w1, w2, ?_, w4⟩
    · simp only [run, e, Option.bind_some, e2]
    · rw [w3, q3]; rfl

/-- C105, partial. Let the caller's function summarise a subtree from its node and its children, in a way that depends only on the order of the nodes. After
any history of insertions, where the caller links the node, computes its summary, propagates it upwards and lets the tree rebalance, and of deletions, the
tree holds the nodes it should, in order, the red-black rules hold, and every node stores the summary of exactly the nodes of its subtree; in
particular the root stores that of all nodes. Missing: `bfdev_rb_insert_augmented` alone does not do this, see `insert_augmented_violated`. -/
theorem augmented_summaries_partial {cmp : Addr → Addr → Int} (o : Order cmp) (ops : List Op) {h : Heap α} (h0 : h.root = 0) (hok : okAll cmp ops [])
    (hf : 2 * Nat.log2 (ops.length + 1) < fuel) :
    ∃ h' t', run cmp E fuel ops h = some h' ∧ Holds h' t' ∧ RedBlack t' ∧ t'.inorder = specAll cmp ops [] ∧ Summed E h'.aug t' ∧
      (if h'.root = 0 then none else some (h'.aug h'.root)) = total E (specAll cmp ops []) := by
  obtain ⟨h', t', e, q1, q2, q3, q4⟩ := history_from (E := E) (fuel := fuel) o ops (t := .nil) (h := h) ⟨h0, trivial, by simp [Tree.inorder]⟩ ⟨rfl, 0, rfl⟩
    (by simp [Ascending, Tree.inorder]) trivial hok (by simpa [Tree.size, Tree.inorder] using hf)
  refine ⟨h', t', e, q1, q2, q3, q4, ?_⟩
  have q3' : t'.inorder = specAll cmp ops [] := q3
  rw [← q3', q1.1]
  cases t' with
  | nil => rfl
  | node l a c r =>
    rw [if_neg (show (Tree.node l a c r).top ≠ 0 from q1.2.1.1)]
    exact q4.1

/-! ### Instances -/

/-- The number of nodes. -/
def count : Comb Nat := fun _ l r => l.getD 0 + 1 + r.getD 0
instance : Lawful count := ⟨fun _ _ A B C => by simp only [count, Option.getD_some]; omega⟩

/-- The sum of the weights of the nodes. -/
def sum (w : Addr → Int) : Comb Int := fun a l r => l.getD 0 + w a + r.getD 0
instance (w : Addr → Int) : Lawful (sum w) := ⟨fun _ _ A B C => by simp only [sum, Option.getD_some]; omega⟩

/-- The greatest value of the nodes, as `BFDEV_RB_DECLARE_CALLBACKS_MAX` has it, rbtree.h:1071-1097. -/
def greatest (v : Addr → Int) : Comb Int := fun a l r =>
  let m := v a
  let m := match l with | none => m | some x => if x > m then x else m
  match r with | none => m | some x => if x > m then x else m
instance (v : Addr → Int) : Lawful (greatest v) :=
  ⟨fun p g A B C => by rcases A with _ | a <;> rcases B with _ | b <;> rcases C with _ | c <;> simp only [greatest] <;> grind⟩

theorem total_count : ∀ L : List Addr, (total count L).getD 0 = L.length
  | [] => rfl
  | a :: l => by
    have := total_count l
    simp only [total, count, Option.getD_some, List.length_cons, Option.getD_none]
    omega

theorem total_greatest (v : Addr → Int) : ∀ (L : List Addr) (m : Int), total (greatest v) L = some m → (∀ a, a ∈ L → v a ≤ m) ∧ ∃ a, a ∈ L ∧ v a = m
  | [], m, h => absurd h (by simp [total])
  | a :: l, m, h => by
    simp only [total, greatest, Option.some.injEq] at h
    cases hl : total (greatest v) l with
    | none =>
      have : l = [] := by cases l with | nil => rfl | cons b l => simp [total] at hl
      subst this
      simp [total] at h
      exact ⟨by simp [h], a, by simp, h⟩
    | some x =>
      obtain ⟨i1, b, i2, i3⟩ := total_greatest v l x hl
      rw [hl] at h
      dsimp only at h
      by_cases hx : x > v a
      · rw [if_pos hx] at h
        subst h
        exact ⟨fun c hc => by rcases List.mem_cons.1 hc with rfl | hc; exact Int.le_of_lt hx; exact i1 c hc, b, List.mem_cons_of_mem _ i2, i3⟩
      · rw [if_neg hx] at h
        subst h
        exact ⟨fun c hc => by rcases List.mem_cons.1 hc with rfl | hc; exact Int.le_refl _; exact Int.le_trans (i1 c hc) (Int.not_lt.1 hx), a, by simp, rfl⟩

/-- C105 for the maxima of `BFDEV_RB_DECLARE_CALLBACKS_MAX`: the root keeps the greatest value of all nodes. -/
theorem max_root {cmp : Addr → Addr → Int} (o : Order cmp) (v : Addr → Int) (ops : List Op) {h : Heap Int} (h0 : h.root = 0) (hok : okAll cmp ops [])
    (hf : 2 * Nat.log2 (ops.length + 1) < fuel) :
    ∃ h', run cmp (greatest v) fuel ops h = some h' ∧ (h'.root = 0 → specAll cmp ops [] = []) ∧
      (h'.root ≠ 0 → (∀ a, a ∈ specAll cmp ops [] → v a ≤ h'.aug h'.root) ∧ ∃ a, a ∈ specAll cmp ops [] ∧ v a = h'.aug h'.root) := by
  obtain ⟨h', t', e, q1, _, q3, _, q5⟩ := augmented_summaries_partial (E := greatest v) (fuel := fuel) o ops h0 hok hf
  refine ⟨h', e, fun hz => ?_, fun hz => ?_⟩
  · rw [if_pos hz] at q5
    cases hL : specAll cmp ops [] with
    | nil => rfl
    | cons a l => rw [hL] at q5; simp [total] at q5
  · rw [if_neg hz] at q5
    exact total_greatest v _ _ q5.symm

/-- C105 violated by `bfdev_rb_insert_augmented`: it links the node and rebalances but has no summary above the node brought up to date. Every node sets its own
count to 1 before it is inserted; after the second one the root still counts 1. -/
theorem insert_augmented_violated :
    let h0 : Heap Nat := ⟨fun _ => 0, fun _ => 0, fun _ => 0, fun _ => true, fun _ => 1, 0⟩
    ∃ h', Rbtree.runAll exCmp (callbacks count 9) 9 [.insert 10, .insert 20] h0 = some h' ∧ specAll exCmp [.insert 10, .insert 20] [] = [10, 20] ∧
      h'.root = 10 ∧ h'.aug 10 = 1 ∧ total count [10, 20] = some 2 := by
  refine ⟨_, rfl, ?_, ?_, ?_, ?_⟩ <;> decide +kernel

/-- A history that meets the hypotheses, with rotations and all forms of removal: the counts at the end. -/
example : okAll exCmp exOps [] ∧ 2 * Nat.log2 (exOps.length + 1) < 9 ∧
    ((run exCmp count 9 exOps ⟨fun _ => 77, fun _ => 77, fun _ => 77, fun _ => true, fun _ => 0, 0⟩).map fun h => (h.root, h.aug h.root)) = some (20, 6) ∧
    specAll exCmp exOps [] = [2, 5, 6, 8, 20, 30] := by
  refine ⟨?_, ?_, ?_, ?_⟩
  · simp [exOps, okAll, Op.ok, Op.spec, exCmp]
  all_goals decide +kernel

/-- A summary that does not depend on the order of the nodes only: the height. -/
example : ¬ Lawful (fun _ l r => max (l.getD 0) (r.getD 0) + 1 : Comb Nat) := fun h => absurd (h.rot 1 2 (some 5) none none) (by decide)

end Bfdev.Augment

import Verif.Rbtree.Props
/-!
C109: a cached tree over whole histories.
-/
namespace Bfdev.Rbtree
variable {α : Type}

/-! ## Model -/

/-- `bfdev_rb_cached_replace`, rbtree.h:1018-1026. -/
def cachedReplace (h : Heap α) (leftmost oldn newn : Addr) : Heap α × Addr := (replace h oldn newn, if leftmost = oldn then newn else leftmost)

/-- The calls on a cached tree. -/
inductive COp where
  | insert (x : Addr)
  | delete (x : Addr)
  | replace (x y : Addr)
  /-- `bfdev_rb_cached_first`, rbtree.h:757-758 -/
  | first

/-- What a caller sees. -/
inductive CRes where
  | flag (b : Bool)
  | node (a : Addr)
  | done
deriving DecidableEq, Repr

/-- A call; the state is the heap with the root, and `cached->leftmost`. -/
def COp.run (cmp : Addr → Addr → Int) (cb : Cb α) (fuel : Nat) (s : Heap α × Addr) : COp → Option ((Heap α × Addr) × CRes)
  | .insert x => (cachedInsert cb fuel s.1 s.2 x (cmp x)).map fun r => ((r.1, r.2.1), .flag r.2.2)
  | .delete x => (cachedDelete cb fuel s.1 s.2 x).map fun r => ((r.1, r.2.1), .node r.2.2)
  | .replace x y => some (cachedReplace s.1 s.2 x y, .done)
  | .first => some (s, .node s.2)

/-- A history: the final state and all results. -/
def crunAll (cmp : Addr → Addr → Int) (cb : Cb α) (fuel : Nat) : List COp → Heap α × Addr → Option ((Heap α × Addr) × List CRes)
  | [], s => some (s, [])
  | o :: os, s => (o.run cmp cb fuel s).bind fun r => (crunAll cmp cb fuel os r.1).map fun t => (t.1, r.2 :: t.2)

/-- The usual way to use such a tree as a queue: `while ((node = bfdev_rb_cached_first(tree))) bfdev_rb_cached_delete(tree, node)`; the nodes in the order in which they
come. -/
def drain (cb : Cb α) (fuel : Nat) : Nat → Heap α × Addr → Option (List Addr)
  | 0, _ => none
  | n + 1, s => if s.2 = 0 then some [] else (cachedDelete cb fuel s.1 s.2 s.2).bind fun r => (drain cb fuel n (r.1, r.2.1)).map (s.2 :: ·)

/-! ## Specification -/

/-- What a call does to the ascending sequence of nodes, and what it returns: the deletion returns the new first node if the first one was deleted, and NULL otherwise. -/
def COp.spec (cmp : Addr → Addr → Int) (L : List Addr) : COp → List Addr × CRes
  | .insert x => ((Op.insert x).spec cmp L, .flag (!L.any fun a => cmp x a == 0))
  | .delete x => (L.erase x, .node (if L.headD 0 = x then (L.erase x).headD 0 else 0))
  | .replace x y => (L.map fun a => if a = x then y else a, .done)
  | .first => (L, .node (L.headD 0))

/-- What a caller may do: insert a node that is not in the tree, delete one that is, replace one that is by one that is not and that belongs at the same place. -/
def COp.ok (cmp : Addr → Addr → Int) (L : List Addr) : COp → Prop
  | .insert x => x ≠ 0 ∧ x ∉ L
  | .delete x => x ∈ L
  | .replace x y => x ∈ L ∧ y ≠ 0 ∧ y ∉ L ∧ ∀ a, (cmp y a < 0 ↔ cmp x a < 0) ∧ (cmp a y < 0 ↔ cmp a x < 0)
  | .first => True

def cspecAll (cmp : Addr → Addr → Int) : List COp → List Addr → List Addr × List CRes
  | [], L => (L, [])
  | o :: os, L => ((cspecAll cmp os (o.spec cmp L).1).1, (o.spec cmp L).2 :: (cspecAll cmp os (o.spec cmp L).1).2)

def cokAll (cmp : Addr → Addr → Int) : List COp → List Addr → Prop
  | [], _ => True
  | o :: os, L => o.ok cmp L ∧ cokAll cmp os (o.spec cmp L).1

/-! ## Proofs -/

theorem cached_insert_res (cb : Cb α) {cmp : Addr → Addr → Int} (o : Order cmp) {h : Heap α} {t : Tree} {x : Addr} {fuel : Nat}
    (hh : Holds h t) (hrb : RedBlack t) (hs : Ascending cmp t.inorder) (hx : x ≠ 0) (hxt : x ∉ t.inorder) (hf : t.height < fuel) {lm : Addr} {r : Heap α × Addr × Bool}
    (e : cachedInsert cb fuel h lm x (cmp x) = some r) : r.2.2 = !t.inorder.any (fun a => cmp x a == 0) := by
  unfold cachedInsert at e
  rcases parent_holds (fuel := fuel) hh (o.fits hs x) (by omega) with ⟨e1, a, ha, hz⟩ | ⟨link, p, lm', e1, k, rfl, rfl, rfl, rfl, w1, w2⟩
  · rw [e1] at e
    cases e
    have : t.inorder.any (fun a => cmp x a == 0) = true := by
      simp only [List.any_eq_true, beq_iff_eq]; exact ⟨a, ha, hz⟩
    rw [this]; rfl
  · rw [e1] at e
    have hany : (plug k .nil).inorder.any (fun a => cmp x a == 0) = false := by
      rw [List.any_eq_false]
      intro a ha
      simp only [inorder_plug, Tree.inorder, List.append_nil, List.mem_append] at ha
      simp only [beq_iff_eq]
      rcases ha with ha | ha
      · have := w1 a ha; simp only at this; omega
      · have := w2 a ha; simp only at this; omega
    obtain ⟨h1, h2, h3⟩ := Option.map_eq_some_iff.1 e
    rw [hany, ← h3]; rfl

theorem cached_delete_res (cb : Cb α) {h : Heap α} {t : Tree} {x : Addr} {fuel : Nat} (hh : Holds h t) (hrb : RedBlack t) (hx : x ∈ t.inorder) (hf : t.height ≤ fuel)
    {r : Heap α × Addr × Addr} (e : cachedDelete cb fuel h (t.inorder.headD 0) x = some r) :
    r.2.2 = if t.inorder.headD 0 = x then (t.inorder.erase x).headD 0 else 0 := by
  obtain ⟨h', lm, t', res, e1, -, -, q3, q4⟩ := cached_delete_correct cb hh hrb hx hf
  rw [e] at e1
  unfold cachedDelete at e
  by_cases hc : t.inorder.headD 0 = x
  · rw [if_neg (fun hn => hn hc)] at e
    rw [if_pos hc]
    cases hn : next h fuel x with
    | none => rw [hn] at e; cases e
    | some n =>
      rw [hn] at e
      obtain ⟨h1, h2, h3⟩ := Option.map_eq_some_iff.1 e
      cases e1
      rw [← q3, ← q4]
      injection h3 with h3 h4; injection h4 with h4 h5
      rw [← h4, ← h5]
  · rw [if_pos hc] at e
    rw [if_neg hc]
    obtain ⟨h1, h2, h3⟩ := Option.map_eq_some_iff.1 e
    rw [← h3]

theorem cstep_correct (cb : Cb α) {cmp : Addr → Addr → Int} (o : Order cmp) {h : Heap α} {t : Tree} {p : COp} {fuel : Nat}
    (hh : Holds h t) (hrb : RedBlack t) (hs : Ascending cmp t.inorder) (hp : p.ok cmp t.inorder) (hf : t.height < fuel) :
    ∃ h' t', p.run cmp cb fuel (h, t.inorder.headD 0) = some ((h', t'.inorder.headD 0), (p.spec cmp t.inorder).2) ∧ Holds h' t' ∧ RedBlack t' ∧
      t'.inorder = (p.spec cmp t.inorder).1 ∧ Ascending cmp t'.inorder ∧ t'.size ≤ t.size + 1 := by
  cases p with
  | insert x =>
    obtain ⟨hx, hxt⟩ := hp
    obtain ⟨h', lm, t', res, e, q1, q2, q3, q4, q5⟩ := cached_insert_correct cb o (fuel := fuel) hh hrb hs hx hxt hf
    have hr := cached_insert_res cb o hh hrb hs hx hxt hf e
    obtain ⟨-, t2, -, -, -, r3, -, r5⟩ := step_correct cb o hh hrb hs (p := .insert x) ⟨hx, hxt⟩ hf
    refine ⟨h', t', ?_, q1, q2, q4, q3, ?_⟩
    · simp only [COp.run, e, Option.map_some, COp.spec, q5]
      rw [← hr]
    · simp only [Tree.size] at r5 ⊢
      rw [q4, ← r3]; exact r5
  | delete x =>
    obtain ⟨h', lm, t', res, e, q1, q2, q3, q4⟩ := cached_delete_correct cb (fuel := fuel) hh hrb hp (Nat.le_of_lt hf)
    have hr := cached_delete_res cb hh hrb hp (Nat.le_of_lt hf) e
    refine ⟨h', t', ?_, q1, q2, q3, ?_, ?_⟩
    · simp only [COp.run, e, Option.map_some, COp.spec, q4]
      rw [← hr]
    · rw [q3]; exact hs.sublist List.erase_sublist
    · have := List.length_erase_le (a := x) (l := t.inorder)
      simp only [Tree.size, q3]; omega
  | replace x y =>
    obtain ⟨hx, hy, hyt, hsame⟩ := hp
    obtain ⟨A, B, t', e1, q1, q2, q3, -⟩ := replace_correct hh hrb hx hy hyt
    have hnd := hh.2.2
    rw [e1] at hnd
    have hA : ∀ a ∈ A, a ≠ x := by
      intro a ha e
      exact (List.nodup_append.1 hnd).2.2 a ha x List.mem_cons_self e
    have hB : ∀ b ∈ B, b ≠ x := by
      intro b hb e
      have := (List.nodup_cons.1 (List.nodup_append.1 hnd).2.1).1
      exact this (e ▸ hb)
    have hmap : t.inorder.map (fun a => if a = x then y else a) = A ++ y :: B := by
      rw [e1, List.map_append, List.map_cons, if_pos rfl]
      congr 1
      · conv => rhs; rw [← List.map_id A]
        exact List.map_congr_left fun a ha => if_neg (hA a ha)
      · congr 1
        conv => rhs; rw [← List.map_id B]
        exact List.map_congr_left fun a ha => if_neg (hB a ha)
    refine ⟨Rbtree.replace h x y, t', ?_, q1, q3, by rw [q2]; exact hmap.symm, ?_, ?_⟩
    · simp only [COp.run, cachedReplace, COp.spec, q2, e1]
      congr 3
      cases A with
      | nil => simp
      | cons a A => simp [hA a List.mem_cons_self]
    · unfold Ascending at *
      rw [e1] at hs
      rw [q2]
      simp only [List.pairwise_append, List.pairwise_cons, List.mem_cons] at hs ⊢
      obtain ⟨s1, ⟨s2, s3⟩, s4⟩ := hs
      refine ⟨s1, ⟨fun b hb => (hsame b).1.2 (s2 b hb), s3⟩, fun a ha b hb => ?_⟩
      rcases hb with rfl | hb
      · exact (hsame a).2.2 (s4 a ha x (.inl rfl))
      · exact s4 a ha b (.inr hb)
    · have e2 := congrArg List.length e1
      have e3 := congrArg List.length q2
      simp only [List.length_append, List.length_cons] at e2 e3
      simp only [Tree.size]; omega
  | first => exact ⟨h, t, rfl, hh, hrb, rfl, hs, by omega⟩

theorem log2_mono {a b : Nat} (hab : a ≤ b) (ha : 0 < a) : Nat.log2 a ≤ Nat.log2 b :=
  (Nat.le_log2 (by omega)).2 (Nat.le_trans (Nat.log2_self_le (by omega)) hab)

theorem chistory_from (cb : Cb α) {cmp : Addr → Addr → Int} (o : Order cmp) : ∀ (ops : List COp) {h : Heap α} {t : Tree} {fuel : Nat},
    Holds h t → RedBlack t → Ascending cmp t.inorder → cokAll cmp ops t.inorder → 2 * Nat.log2 (t.size + ops.length + 1) < fuel →
    ∃ h' t', crunAll cmp cb fuel ops (h, t.inorder.headD 0) = some ((h', t'.inorder.headD 0), (cspecAll cmp ops t.inorder).2) ∧ Holds h' t' ∧ RedBlack t' ∧
      t'.inorder = (cspecAll cmp ops t.inorder).1 ∧ Ascending cmp t'.inorder ∧ t'.size ≤ t.size + ops.length
  | [], h, t, fuel, hh, hrb, hs, _, _ => ⟨h, t, rfl, hh, hrb, rfl, hs, by simp⟩
  | p :: ops, h, t, fuel, hh, hrb, hs, hok, hf => by
    simp only [List.length_cons] at hf ⊢
    have hht := redBlack_height hrb
    have hm1 := log2_mono (a := t.size + 1) (b := t.size + (ops.length + 1) + 1) (by omega) (by omega)
    obtain ⟨h', t', e, q1, q2, q3, q4, q5⟩ := cstep_correct cb o (fuel := fuel) hh hrb hs hok.1 (by omega)
    have hm2 := log2_mono (a := t'.size + ops.length + 1) (b := t.size + (ops.length + 1) + 1) (by omega) (by omega)
    obtain ⟨h2, t2, e2, w1, w2, w3, w4, w5⟩ := chistory_from cb o ops (fuel := fuel) q1 q2 q4 (by rw [q3]; exact hok.2) (by omega)
    refine ⟨h2, t2, ?_, w1, w2, ?_, w4, by omega⟩
    · simp only [crunAll, e, Option.bind_some, e2, Option.map_some, cspecAll]
      rw [q3]
    · rw [w3, q3]; rfl

/-! ## Theorems -/

/-- **C109**: from an empty cached tree, after any sequence of allowed insertions, deletions, replacements and looks at the first node, every call returned what the
ascending sequence of nodes says, `leftmost` is its first node (NULL when it is empty), and the tree holds the sequence under the red-black rules. -/
theorem cached_history (cb : Cb α) {cmp : Addr → Addr → Int} (o : Order cmp) (ops : List COp) {h : Heap α} {fuel : Nat} (h0 : h.root = 0)
    (hok : cokAll cmp ops []) (hf : 2 * Nat.log2 (ops.length + 1) < fuel) :
    ∃ h' t', crunAll cmp cb fuel ops (h, 0) = some ((h', t'.inorder.headD 0), (cspecAll cmp ops []).2) ∧ Holds h' t' ∧ t'.inorder = (cspecAll cmp ops []).1 ∧
      Ascending cmp t'.inorder ∧ RedBlack t' := by
  obtain ⟨h', t', e, q1, q2, q3, q4, -⟩ := chistory_from cb o ops (t := .nil) (h := h) (fuel := fuel) ⟨h0, trivial, by simp [Tree.inorder]⟩ ⟨rfl, 0, rfl⟩
    (by simp [Ascending, Tree.inorder]) hok (by simpa [Tree.size, Tree.inorder] using hf)
  exact ⟨h', t', e, q1, q3, q4, q2⟩

theorem drain_holds (cb : Cb α) {fuel : Nat} : ∀ (n : Nat) {h : Heap α} {t : Tree}, Holds h t → RedBlack t → t.size < n → 2 * Nat.log2 (t.size + 1) ≤ fuel →
    drain cb fuel n (h, t.inorder.headD 0) = some t.inorder
  | 0, h, t, _, _, hn, _ => by omega
  | n + 1, h, t, hh, hrb, hn, hf => by
    have hht := redBlack_height hrb
    unfold drain
    cases hL : t.inorder with
    | nil => simp
    | cons a L =>
      have ha : a ≠ 0 := by
        cases t with
        | nil => simp [Tree.inorder] at hL
        | node l b c r =>
          have key : ∀ (p : Addr) (t : Tree), Rep h p t → ∀ x ∈ t.inorder, x ≠ 0 := by
            intro p t
            induction t generalizing p with
            | nil => intro _ x hx; simp [Tree.inorder] at hx
            | node l b c r ihl ihr =>
              intro hr x hx
              obtain ⟨r1, -, -, -, -, r6, r7⟩ := hr
              simp only [Tree.inorder, List.mem_append, List.mem_cons] at hx
              rcases hx with hx | rfl | hx
              · exact ihl _ r6 x hx
              · exact r1
              · exact ihr _ r7 x hx
          exact key _ _ hh.2.1 a (by rw [hL]; exact List.mem_cons_self)
      obtain ⟨h', lm, t', res, e, q1, q2, q3, q4⟩ := cached_delete_correct cb (fuel := fuel) hh hrb (x := a) (by rw [hL]; exact List.mem_cons_self) (by omega)
      rw [hL] at e q3
      show (if a = 0 then some [] else (cachedDelete cb fuel h a a).bind fun r => (drain cb fuel n (r.1, r.2.1)).map (a :: ·)) = some (a :: L)
      simp only [List.headD_cons] at e
      have q3 : t'.inorder = L := by rw [q3]; simp
      have hsz : t.size = t'.size + 1 := by simp [Tree.size, hL, q3]
      have hm := log2_mono (a := t'.size + 1) (b := t.size + 1) (by omega) (by omega)
      have ih := drain_holds cb (fuel := fuel) n q1 q2 (by omega) (by omega)
      rw [if_neg ha, e]
      rw [q3] at ih
      simp only [Option.bind_some, q4, q3, ih, Option.map_some]

/-- C109. A cached tree is a priority queue: after any history, taking the first node until none is left gives the nodes of the tree in ascending order. -/
theorem drain_sorted (cb : Cb α) {cmp : Addr → Addr → Int} (o : Order cmp) (ops : List COp) {h : Heap α} {fuel n : Nat} (h0 : h.root = 0)
    (hok : cokAll cmp ops []) (hf : 2 * Nat.log2 (ops.length + 1) < fuel) (hn : ops.length < n) :
    ∃ s res, crunAll cmp cb fuel ops (h, 0) = some (s, res) ∧ drain cb fuel n s = some (cspecAll cmp ops []).1 ∧ Ascending cmp (cspecAll cmp ops []).1 := by
  obtain ⟨h', t', e, q1, q2, q3, q4, q5⟩ := chistory_from cb o ops (t := .nil) (h := h) (fuel := fuel) ⟨h0, trivial, by simp [Tree.inorder]⟩ ⟨rfl, 0, rfl⟩
    (by simp [Ascending, Tree.inorder]) hok (by simpa [Tree.size, Tree.inorder] using hf)
  have q5 : t'.size ≤ ops.length := by simpa [Tree.size, Tree.inorder] using q5
  have hm := log2_mono (a := t'.size + 1) (b := ops.length + 1) (by omega) (by omega)
  have hd := drain_holds cb (fuel := fuel) n q1 q2 (by omega) (by omega)
  have q3 : t'.inorder = (cspecAll cmp ops []).1 := q3
  exact ⟨_, _, e, by rw [hd, q3], by rw [← q3]; exact q4⟩

/-! ## The hypotheses are met -/

/-- Nodes compared by the tens of their addresses. -/
def tens (a b : Addr) : Int := (a / 10 : Nat) - ((b / 10 : Nat) : Int)
theorem tensOrder : Order tens := ⟨fun a b => by simp only [tens]; omega, fun a b c => by simp only [tens]; omega⟩
def exCOps : List COp := [.first, .insert 50, .insert 30, .insert 41, .insert 31, .first, .replace 30 32, .first, .delete 41, .insert 20, .delete 20, .delete 32]

example : cokAll tens exCOps [] := by
  simp only [cokAll, exCOps, COp.ok, COp.spec, Op.spec, tens]
  simp
example : cspecAll tens exCOps [] = ([50], [.node 0, .flag true, .flag true, .flag true, .flag false, .node 30, .done, .node 32, .node 0, .flag true, .node 32, .node 50]) := by
  decide +kernel
example : (crunAll tens Cb.dummy 10 exCOps (exEmpty, 0)).map (·.2) =
    some [.node 0, .flag true, .flag true, .flag true, .flag false, .node 30, .done, .node 32, .node 0, .flag true, .node 32, .node 50] := by decide +kernel

end Bfdev.Rbtree

import Verif.Rbtree.Insert
/-!
Deletion: `bfdev_rb_remove` and the rebalancing of `bfdev_rb_erase`.
-/
set_option linter.unusedSimpArgs false
namespace Bfdev.Rbtree
variable {α : Type}

theorem isBlackOrNull_rep {h : Heap α} {p : Addr} {t : Tree} (hr : Rep h p t) : isBlackOrNull h t.top = t.isBlack := by
  cases t with
  | nil => simp [isBlackOrNull, Tree.top, Tree.isBlack]
  | node l a c r =>
    obtain ⟨h1, _, _, _, h5, _⟩ := hr
    simp [isBlackOrNull, Tree.top, Tree.isBlack, h1, h5]

/-- What one round of the rebalancing loop gives. -/
def StepDone (r : Option (EraseNext α)) (h : Heap α) (L : List Addr) (p : Addr) (c : Bool) (k : Ctx) (n : Nat) : Prop :=
  (∃ h2 t2, r = some (.stop h2) ∧ Holds h2 t2 ∧ t2.inorder = L ∧ RedBlack t2 ∧ Others h h2 L) ∨
  (∃ h2 l2 r2, r = some (.again h2 p (up k)) ∧ c = true ∧ k ≠ [] ∧ At h2 k (.node l2 p true r2) ∧ (plug k (.node l2 p true r2)).inorder = L ∧ RB (.node l2 p true r2) (n + 1) ∧ OKC k (n + 2) ∧ Others h h2 L)

/-- The rules for a node of colour `c` that is to be the top of a subtree with `n` black nodes below it, on every way. -/
def OKTop (k : Ctx) (c : Bool) (n : Nat) : Prop := if c = true then OKC k (n + 1) else topBlack k = true ∧ OKC k n

theorem OKTop.plug {k : Ctx} {c : Bool} {n : Nat} {l r : Tree} {a : Addr} (h : OKTop k c n) (hl : RB l n) (hr : RB r n) (hlb : l.isBlack = true) (hrb : r.isBlack = true) :
    RedBlack (plug k (.node l a c r)) := by
  cases c with
  | true => exact plug_redBlack k _ (n + 1) h ⟨n, rfl, hl, hr⟩ (Or.inl rfl)
  | false => exact plug_redBlack k _ n h.2 ⟨hlb, hrb, hl, hr⟩ (Or.inr h.1)

theorem eraseLeft_at (cb : Cb α) {h : Heap α} {k : Ctx} {t Sl Sr : Tree} {p s : Addr} {cp : Bool} {n : Nat} {L : List Addr}
    (hat : At h k (.node t p cp (.node Sl s true Sr))) (ht : RB t n) (htb : t.isBlack = true) (hl : RB Sl n) (hr : RB Sr n) (hk : OKTop k cp (n + 1))
    (hL : (plug k (.node t p cp (.node Sl s true Sr))).inorder = L) : StepDone (eraseLeft cb h s p) h L p cp k n := by
  have hat0 := hat
  obtain ⟨hk0, ⟨p1, p2, p3, p4, p5, p6, ⟨s1, s2, s3, s4, s5, s6, s7⟩⟩, hnd⟩ := hat
  have hsp : s ≠ p := by
    simp only [Tree.inorder, List.nodup_append, List.nodup_cons, List.mem_append, List.mem_cons] at hnd; grind
  unfold eraseLeft
  rw [if_neg s1]
  simp only [s4, s3, isBlackOrNull_rep s7, isBlackOrNull_rep s6]
  cases hrb : Sr.isBlack with
  | true =>
    cases hlb : Sl.isBlack with
    | true =>
      simp only [if_true]
      obtain ⟨hA1, o1⟩ := (at_down_right.1 hat0).paint false
      replace o1 := o1.of_eq (L := L) (by rw [← hL]; simp [inorder_plug, Tree.inorder, plug, pre, post])
      have hb : (h.setBlack s false).black p = cp := by simp [Heap.setBlack, upd, hsp.symm, p5]
      have hpp : (h.setBlack s false).par p = up k := p2
      unfold eraseFlip
      simp only [hb, hpp]
      cases cp with
      | false =>
        left
        obtain ⟨hA2, o2⟩ := (at_down_right.2 hA1).paint true
        replace o2 := o2.of_eq (L := L) (by rw [← hL]; simp [inorder_plug, Tree.inorder, plug, pre, post])
        refine ⟨_, _, by simp, at_iff.1 hA2, by rw [← hL]; simp [inorder_plug, Tree.inorder], ?_, o1.trans o2⟩
        exact plug_redBlack k _ (n + 1) hk.2 ⟨n, rfl, ht, hlb, hrb, hl, hr⟩ (Or.inl rfl)
      | true =>
        have hRB : RB (.node t p true (.node Sl s false Sr)) (n + 1) := ⟨n, rfl, ht, hlb, hrb, hl, hr⟩
        by_cases hkn : k = []
        · left
          refine ⟨_, _, by simp [hkn, up], at_iff.1 (at_down_right.2 hA1), by rw [← hL]; simp [inorder_plug, Tree.inorder], ?_, o1⟩
          subst hkn
          exact plug_redBlack [] _ (n + 1) trivial hRB (Or.inl rfl)
        · right
          refine ⟨_, _, _, ?_, rfl, hkn, at_down_right.2 hA1, by rw [← hL]; simp [inorder_plug, Tree.inorder], hRB, hk, o1⟩
          have : up k ≠ 0 := fun e => hkn (hk0.up_ne_zero.1 e)
          simp [this]
    | false =>
      left
      cases Sl with
      | nil => simp [Tree.isBlack] at hlb
      | node sll sl slc slr =>
        simp only [Tree.isBlack] at hlb
        subst hlb
        obtain ⟨b1, b2, r1, r2⟩ := hl
        obtain ⟨h1, e1, hA1, o1⟩ := rightRotate_at cb none (some true) (at_down_right.1 hat0)
        simp only [Option.isSome_some, Option.isSome_none, if_true, Tree.recolorOpt, recolor_self b1, recolor_self b2, Option.getD_some, Option.getD_none, Bool.false_eq_true, if_false] at hA1
        obtain ⟨h2, e2, hA2, o2⟩ := leftRotate_at cb (some true) none (at_down_right.2 hA1)
        simp only [Option.isSome_some, Option.isSome_none, if_true, Tree.recolorOpt, recolor_self b1, recolor_self b2, Option.getD_some, Option.getD_none, Bool.false_eq_true, if_false] at hA2
        obtain ⟨hA3, o3⟩ := (at_down_right.1 hA2).paint true
        replace o1 := o1.of_eq (L := L) (by rw [← hL]; simp [inorder_plug, Tree.inorder, plug, pre, post])
        replace o2 := o2.of_eq (L := L) (by rw [← hL]; simp [inorder_plug, Tree.inorder, plug, pre, post])
        replace o3 := o3.of_eq (L := L) (by rw [← hL]; simp [inorder_plug, Tree.inorder, plug, pre, post])
        refine ⟨_, _, by simp [e1, e2], at_iff.1 (at_down_right.2 hA3), by rw [← hL]; simp [inorder_plug, Tree.inorder], ?_, (o1.trans o2).trans o3⟩
        exact hk.plug ⟨n, rfl, ht, r1⟩ ⟨n, rfl, r2, hr⟩ rfl rfl
  | false =>
    left
    obtain ⟨h2, e2, hA2, o2⟩ := leftRotate_at cb (some true) none hat0
    simp only [Option.isSome_some, Option.isSome_none, if_true, Tree.recolorOpt, Option.getD_some, Option.getD_none, Bool.false_eq_true, if_false] at hA2
    cases Sr with
    | nil => simp [Tree.isBlack] at hrb
    | node srl sr src srr =>
      simp only [Tree.isBlack] at hrb
      subst hrb
      obtain ⟨b1, b2, r1, r2⟩ := hr
      obtain ⟨hA3, o3⟩ := (at_down_right.1 hA2).paint true
      replace o2 := o2.of_eq (L := L) (by rw [← hL]; simp [inorder_plug, Tree.inorder, plug, pre, post])
      replace o3 := o3.of_eq (L := L) (by rw [← hL]; simp [inorder_plug, Tree.inorder, plug, pre, post])
      refine ⟨_, _, by simp [e2, Tree.top], at_iff.1 (at_down_right.2 hA3), by rw [← hL]; simp [inorder_plug, Tree.inorder], ?_, o2.trans o3⟩
      exact hk.plug ⟨n, rfl, ht, hl⟩ ⟨n, rfl, r1, r2⟩ rfl rfl

theorem eraseStep_left (cb : Cb α) {h : Heap α} {k : Ctx} {t S : Tree} {p : Addr} {cp : Bool} {n : Nat} {L : List Addr}
    (hat : At h k (.node t p cp S)) (ht : RB t n) (htb : t.isBlack = true) (hk : OKC (⟨true, p, cp, S⟩ :: k) (n + 1))
    (hL : (plug k (.node t p cp S)).inorder = L) :
    StepDone (eraseStep cb h t.top p) h L p cp k n := by
  have hat0 := hat
  obtain ⟨hk0, ⟨p1, p2, p3, p4, p5, p6, p7⟩, hnd⟩ := hat
  have hS : RB S (n + 1) := by cases cp <;> exact hk.1
  cases S with
  | nil => simp [RB] at hS
  | node Sl s cs Sr =>
    obtain ⟨s1, s2, s3, s4, s5, s6, s7⟩ := p7
    have hts : t.top ≠ s := fun e => by
      have := top_mem (t := t) (by rw [e]; exact s1)
      rw [e] at this
      simp only [Tree.inorder, List.nodup_append, List.nodup_cons, List.mem_append, List.mem_cons] at hnd; grind
    simp only [Tree.top] at p4
    unfold eraseStep
    simp only [p4, ne_eq, hts, not_false_eq_true, if_true, s1, if_false, s5]
    cases cs with
    | true =>
      simp only [Bool.true_eq_false, if_false]
      obtain ⟨m, hm, rl, rr⟩ := hS
      obtain rfl : m = n := by omega
      refine eraseLeft_at cb hat0 ht htb rl rr ?_ hL
      cases cp with
      | true => exact hk.2
      | false => exact hk.2.2
    | false =>
      obtain ⟨b1, b2, r1, r2⟩ := hS
      obtain ⟨h1, e1, hA1, o1⟩ := leftRotate_at cb (some false) (some true) hat0
      simp only [if_true, e1, Option.bind_eq_bind, Option.bind_some]
      cases cp with
      | false => exact absurd hk.2.1 (by simp [Tree.isBlack])
      | true =>
        simp only [Option.isSome_some, Option.isSome_none, if_true, Tree.recolorOpt, recolor_self b1, recolor_self b2, Option.getD_some, Option.getD_none, Bool.false_eq_true, if_false] at hA1
        cases Sl with
        | nil => simp [RB] at r1
        | node sll sl slc slr =>
          simp only [Tree.isBlack] at b1
          subst b1
          obtain ⟨m, hm, rl, rr⟩ := r1
          obtain rfl : m = n := by omega
          replace o1 := o1.of_eq (L := L) (by rw [← hL]; simp [inorder_plug, Tree.inorder, plug, pre, post])
          have := eraseLeft_at cb (at_down_left.1 hA1) ht htb rl rr (show OKTop _ false (m + 1) from ⟨rfl, r2, hk.2⟩)
            (show _ = L by rw [← hL]; simp [inorder_plug, Tree.inorder, plug, pre, post])
          rcases this with ⟨h2, t2, q1, q2, q3, q4, q5⟩ | ⟨h2, l2, rr2, q1, q2, _⟩
          · exact Or.inl ⟨h2, t2, q1, q2, q3, q4, o1.trans q5⟩
          · simp at q2

theorem eraseRight_at (cb : Cb α) {h : Heap α} {k : Ctx} {t Sl Sr : Tree} {p s : Addr} {cp : Bool} {n : Nat} {L : List Addr}
    (hat : At h k (.node (.node Sr s true Sl) p cp t)) (ht : RB t n) (htb : t.isBlack = true) (hl : RB Sl n) (hr : RB Sr n) (hk : OKTop k cp (n + 1))
    (hL : (plug k (.node (.node Sr s true Sl) p cp t)).inorder = L) : StepDone (eraseRight cb h s p) h L p cp k n := by
  have hat0 := hat
  obtain ⟨hk0, ⟨p1, p2, p4, p3, p5, ⟨s1, s2, s4, s3, s5, s7, s6⟩, p6⟩, hnd⟩ := hat
  have hsp : s ≠ p := by
    simp only [Tree.inorder, List.nodup_append, List.nodup_cons, List.mem_append, List.mem_cons] at hnd; grind
  unfold eraseRight
  rw [if_neg s1]
  simp only [s4, s3, isBlackOrNull_rep s7, isBlackOrNull_rep s6]
  cases hrb : Sr.isBlack with
  | true =>
    cases hlb : Sl.isBlack with
    | true =>
      simp only [if_true]
      obtain ⟨hA1, o1⟩ := (at_down_left.1 hat0).paint false
      replace o1 := o1.of_eq (L := L) (by rw [← hL]; simp [inorder_plug, Tree.inorder, plug, pre, post])
      have hb : (h.setBlack s false).black p = cp := by simp [Heap.setBlack, upd, hsp.symm, p5]
      have hpp : (h.setBlack s false).par p = up k := p2
      unfold eraseFlip
      simp only [hb, hpp]
      cases cp with
      | false =>
        left
        obtain ⟨hA2, o2⟩ := (at_down_left.2 hA1).paint true
        replace o2 := o2.of_eq (L := L) (by rw [← hL]; simp [inorder_plug, Tree.inorder, plug, pre, post])
        refine ⟨_, _, by simp, at_iff.1 hA2, by rw [← hL]; simp [inorder_plug, Tree.inorder], ?_, o1.trans o2⟩
        exact plug_redBlack k _ (n + 1) hk.2 ⟨n, rfl, ⟨hrb, hlb, hr, hl⟩, ht⟩ (Or.inl rfl)
      | true =>
        have hRB : RB (.node (.node Sr s false Sl) p true t) (n + 1) := ⟨n, rfl, ⟨hrb, hlb, hr, hl⟩, ht⟩
        by_cases hkn : k = []
        · left
          refine ⟨_, _, by simp [hkn, up], at_iff.1 (at_down_left.2 hA1), by rw [← hL]; simp [inorder_plug, Tree.inorder], ?_, o1⟩
          subst hkn
          exact plug_redBlack [] _ (n + 1) trivial hRB (Or.inl rfl)
        · right
          refine ⟨_, _, _, ?_, rfl, hkn, at_down_left.2 hA1, by rw [← hL]; simp [inorder_plug, Tree.inorder], hRB, hk, o1⟩
          have : up k ≠ 0 := fun e => hkn (hk0.up_ne_zero.1 e)
          simp [this]
    | false =>
      left
      cases Sl with
      | nil => simp [Tree.isBlack] at hlb
      | node slr sl slc sll =>
        simp only [Tree.isBlack] at hlb
        subst hlb
        obtain ⟨b2, b1, r2, r1⟩ := hl
        obtain ⟨h1, e1, hA1, o1⟩ := leftRotate_at cb none (some true) (at_down_left.1 hat0)
        simp only [Option.isSome_some, Option.isSome_none, if_true, Tree.recolorOpt, recolor_self b1, recolor_self b2, Option.getD_some, Option.getD_none, Bool.false_eq_true, if_false] at hA1
        obtain ⟨h2, e2, hA2, o2⟩ := rightRotate_at cb (some true) none (at_down_left.2 hA1)
        simp only [Option.isSome_some, Option.isSome_none, if_true, Tree.recolorOpt, recolor_self b1, recolor_self b2, Option.getD_some, Option.getD_none, Bool.false_eq_true, if_false] at hA2
        obtain ⟨hA3, o3⟩ := (at_down_left.1 hA2).paint true
        replace o1 := o1.of_eq (L := L) (by rw [← hL]; simp [inorder_plug, Tree.inorder, plug, pre, post])
        replace o2 := o2.of_eq (L := L) (by rw [← hL]; simp [inorder_plug, Tree.inorder, plug, pre, post])
        replace o3 := o3.of_eq (L := L) (by rw [← hL]; simp [inorder_plug, Tree.inorder, plug, pre, post])
        refine ⟨_, _, by simp [e1, e2], at_iff.1 (at_down_left.2 hA3), by rw [← hL]; simp [inorder_plug, Tree.inorder], ?_, (o1.trans o2).trans o3⟩
        exact hk.plug ⟨n, rfl, hr, r2⟩ ⟨n, rfl, r1, ht⟩ rfl rfl
  | false =>
    left
    obtain ⟨h2, e2, hA2, o2⟩ := rightRotate_at cb (some true) none hat0
    simp only [Option.isSome_some, Option.isSome_none, if_true, Tree.recolorOpt, Option.getD_some, Option.getD_none, Bool.false_eq_true, if_false] at hA2
    cases Sr with
    | nil => simp [Tree.isBlack] at hrb
    | node srl sr src srr =>
      simp only [Tree.isBlack] at hrb
      subst hrb
      obtain ⟨b1, b2, r1, r2⟩ := hr
      obtain ⟨hA3, o3⟩ := (at_down_left.1 hA2).paint true
      replace o2 := o2.of_eq (L := L) (by rw [← hL]; simp [inorder_plug, Tree.inorder, plug, pre, post])
      replace o3 := o3.of_eq (L := L) (by rw [← hL]; simp [inorder_plug, Tree.inorder, plug, pre, post])
      refine ⟨_, _, by simp [e2, Tree.top], at_iff.1 (at_down_left.2 hA3), by rw [← hL]; simp [inorder_plug, Tree.inorder], ?_, o2.trans o3⟩
      exact hk.plug ⟨n, rfl, r1, r2⟩ ⟨n, rfl, hl, ht⟩ rfl rfl

theorem eraseStep_right (cb : Cb α) {h : Heap α} {k : Ctx} {t S : Tree} {p : Addr} {cp : Bool} {n : Nat} {L : List Addr}
    (hat : At h k (.node S p cp t)) (ht : RB t n) (htb : t.isBlack = true) (hk : OKC (⟨false, p, cp, S⟩ :: k) (n + 1))
    (hL : (plug k (.node S p cp t)).inorder = L) :
    StepDone (eraseStep cb h t.top p) h L p cp k n := by
  have hat0 := hat
  obtain ⟨hk0, ⟨p1, p2, p4, p3, p5, p7, p6⟩, hnd⟩ := hat
  have hS : RB S (n + 1) := by cases cp <;> exact hk.1
  cases S with
  | nil => simp [RB] at hS
  | node Sr s cs Sl =>
    obtain ⟨s1, s2, s4, s3, s5, s7, s6⟩ := p7
    have hts : t.top ≠ s := fun e => by
      have := top_mem (t := t) (by rw [e]; exact s1)
      rw [e] at this
      simp only [Tree.inorder, List.nodup_append, List.nodup_cons, List.mem_append, List.mem_cons] at hnd; grind
    simp only [Tree.top] at p4
    unfold eraseStep
    simp only [p3, p4, ne_eq, not_true_eq_false, if_false, s1, s5]
    cases cs with
    | true =>
      simp only [Bool.true_eq_false, if_false]
      obtain ⟨m, hm, rr, rl⟩ := hS
      obtain rfl : m = n := by omega
      refine eraseRight_at cb hat0 ht htb rl rr ?_ hL
      cases cp with
      | true => exact hk.2
      | false => exact hk.2.2
    | false =>
      obtain ⟨b2, b1, r2, r1⟩ := hS
      obtain ⟨h1, e1, hA1, o1⟩ := rightRotate_at cb (some false) (some true) hat0
      simp only [if_true, e1, Option.bind_eq_bind, Option.bind_some]
      cases cp with
      | false => exact absurd hk.2.1 (by simp [Tree.isBlack])
      | true =>
        simp only [Option.isSome_some, Option.isSome_none, if_true, Tree.recolorOpt, recolor_self b1, recolor_self b2, Option.getD_some, Option.getD_none, Bool.false_eq_true, if_false] at hA1
        cases Sl with
        | nil => simp [RB] at r1
        | node slr sl slc sll =>
          simp only [Tree.isBlack] at b1
          subst b1
          obtain ⟨m, hm, rr, rl⟩ := r1
          obtain rfl : m = n := by omega
          replace o1 := o1.of_eq (L := L) (by rw [← hL]; simp [inorder_plug, Tree.inorder, plug, pre, post])
          have := eraseRight_at cb (at_down_right.1 hA1) ht htb rl rr (show OKTop _ false (m + 1) from ⟨rfl, r2, hk.2⟩)
            (show _ = L by rw [← hL]; simp [inorder_plug, Tree.inorder, plug, pre, post])
          rcases this with ⟨h2, t2, q1, q2, q3, q4, q5⟩ | ⟨h2, l2, rr2, q1, q2, _⟩
          · exact Or.inl ⟨h2, t2, q1, q2, q3, q4, o1.trans q5⟩
          · simp at q2

theorem erase_at (cb : Cb α) : ∀ (fuel : Nat) (k : Ctx) {h : Heap α} {t : Tree} {n : Nat} {L : List Addr},
    At h k t → k ≠ [] → RB t n → t.isBlack = true → OKC k (n + 1) → k.length ≤ fuel → (plug k t).inorder = L → Done (eraseLoop cb fuel h t.top (up k)) h L
  | 0, k, h, t, n, L, _, hk0, _, _, _, hf, _ => absurd (List.length_eq_zero_iff.1 (Nat.le_zero.1 hf)) hk0
  | fuel + 1, [], h, t, n, L, _, hk0, _, _, _, hf, _ => absurd rfl hk0
  | fuel + 1, ⟨d, p, cp, S⟩ :: k, h, t, n, L, hat, _, ht, htb, hk, hf, hL => by
    have hres : StepDone (eraseStep cb h t.top p) h L p cp k n := by
      cases d
      · exact eraseStep_right cb (at_down_right.2 hat) ht htb hk hL
      · exact eraseStep_left cb (at_down_left.2 hat) ht htb hk hL
    have hp : p ≠ 0 := by
      obtain ⟨hk0, _, _⟩ := hat
      cases d <;> exact hk0.1
    have hup : up (⟨d, p, cp, S⟩ :: k) = p := rfl
    rw [hup, eraseLoop, if_neg hp]
    rcases hres with ⟨h2, t2, q1, q2, q3, q4, q5⟩ | ⟨h2, l2, r2, q1, _, q2, q3, q4, q5, q6, q7⟩
    · rw [q1]; exact ⟨h2, t2, rfl, q2, q3, q4, q5⟩
    · rw [q1]
      obtain ⟨h3, t3, e3, w1, w2, w3, w4⟩ := erase_at cb fuel k q3 q2 q5 rfl q6 (by simp at hf; omega) q4
      exact ⟨h3, t3, e3, w1, w2, w3, q7.trans w4⟩

end Bfdev.Rbtree

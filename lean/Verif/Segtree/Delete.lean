import Verif.Segtree.Local
/-!
Property C29: deletion from an interval tree keeps the maxima, so that queries stay exact.
-/
set_option linter.unusedSimpArgs false
namespace Bfdev.Segtree
open Rbtree

variable {E : Ends} {fuel : Nat}

theorem Good.mem {h : Heap Int} {L : List Addr} (hg : Good E h L) {a : Addr} (ha : a ∈ L) : ∃ k l c r, At h k (.node l a c r) ∧ (plug k (.node l a c r)).inorder = L ∧ Loc E h.aug (plug k (.node l a c r)) := by
  obtain ⟨t, h1, h2, h3⟩ := hg
  rw [← h2] at ha
  obtain ⟨k, l, c, r, rfl⟩ := exists_ctx t ha
  exact ⟨k, l, c, r, at_iff.2 h1, h2, h3⟩

theorem Good.right {h : Heap Int} {L : List Addr} (hg : Good E h L) {a : Addr} (ha : a ∈ L) (h0 : h.right a ≠ 0) : h.right a ∈ L := by
  obtain ⟨k, l, c, r, h1, h2, _⟩ := hg.mem ha
  have e : h.right a = r.top := h1.2.1.2.2.2.1
  rw [e] at h0 ⊢
  rw [← h2, inorder_plug]
  simp [Tree.inorder, top_mem h0]

theorem Good.left {h : Heap Int} {L : List Addr} (hg : Good E h L) {a : Addr} (ha : a ∈ L) (h0 : h.left a ≠ 0) : h.left a ∈ L := by
  obtain ⟨k, l, c, r, h1, h2, _⟩ := hg.mem ha
  have e : h.left a = l.top := h1.2.1.2.2.1
  rw [e] at h0 ⊢
  rw [← h2, inorder_plug]
  simp [Tree.inorder, top_mem h0]

theorem Good.par {h : Heap Int} {L : List Addr} (hg : Good E h L) {a : Addr} (ha : a ∈ L) (h0 : h.par a ≠ 0) : h.par a ∈ L := by
  obtain ⟨k, l, c, r, h1, h2, _⟩ := hg.mem ha
  have e : h.par a = up k := h1.2.1.2.1
  rw [e] at h0 ⊢
  rw [← h2, inorder_plug]
  cases k with
  | nil => exact absurd rfl h0
  | cons f k =>
    rcases up_mem (f := f) (k := k) with hm | hm
    · simp [hm]
    · simp [hm]

theorem Good.paint {h : Heap Int} {L : List Addr} (hg : Good E h L) {a : Addr} (ha : a ∈ L) (v : Bool) : Good E (h.setBlack a v) L := by
  obtain ⟨k, l, c, r, h1, h2, h3⟩ := hg.mem ha
  refine ⟨_, at_iff.1 (h1.paint v).1, ?_, ?_⟩
  · rw [← h2, inorder_plug, inorder_plug]; rfl
  · rw [loc_plug] at h3 ⊢; exact h3

theorem Good.leftRotate {h h' : Heap Int} {L : List Addr} (hg : Good E h L) {a ch : Addr} (ha : a ∈ L) {color ccolor : Option Bool}
    (e : leftRotate (callbacks E fuel) h a color ccolor = some (h', ch)) : Good E h' L ∧ (ch ≠ 0 → ch ∈ L) := by
  obtain ⟨k, A, c, r, h1, h2, h3⟩ := hg.mem ha
  have hr : h.right a = r.top := h1.2.1.2.2.2.1
  cases r with
  | nil =>
    unfold Rbtree.leftRotate at e
    simp [hr, Tree.top] at e
  | node B p cp C =>
    obtain ⟨h'', e', hat', _⟩ := leftRotate_at (callbacks E fuel) color ccolor h1
    have he := e'.symm.trans e
    simp only [Option.some.injEq, Prod.mk.injEq] at he
    obtain ⟨rfl, rfl⟩ := he
    refine ⟨⟨_, at_iff.1 hat', ?_, rotate_left_loc h1 e hat' rfl h3⟩, fun h0 => ?_⟩
    · rw [← h2, inorder_plug, inorder_plug]; simp [Tree.inorder]
    · rw [← h2, inorder_plug]; simp [Tree.inorder, top_mem h0]

theorem Good.rightRotate {h h' : Heap Int} {L : List Addr} (hg : Good E h L) {a ch : Addr} (ha : a ∈ L) {color ccolor : Option Bool}
    (e : rightRotate (callbacks E fuel) h a color ccolor = some (h', ch)) : Good E h' L ∧ (ch ≠ 0 → ch ∈ L) := by
  obtain ⟨k, l, c, C, h1, h2, h3⟩ := hg.mem ha
  have hr : h.left a = l.top := h1.2.1.2.2.1
  cases l with
  | nil =>
    unfold Rbtree.rightRotate at e
    simp [hr, Tree.top] at e
  | node A p cp B =>
    obtain ⟨h'', e', hat', _⟩ := rightRotate_at (callbacks E fuel) color ccolor h1
    have he := e'.symm.trans e
    simp only [Option.some.injEq, Prod.mk.injEq] at he
    obtain ⟨rfl, rfl⟩ := he
    refine ⟨⟨_, at_iff.1 hat', ?_, rotate_right_loc h1 e hat' rfl h3⟩, fun h0 => ?_⟩
    · rw [← h2, inorder_plug, inorder_plug]; simp [Tree.inorder]
    · rw [← h2, inorder_plug]; simp [Tree.inorder, top_mem h0]

/-! ### Rebalancing after a deletion -/

/-- What a step of the rebalancing leaves. -/
def NextGood (E : Ends) (L : List Addr) : EraseNext Int → Prop
  | .stop h => Good E h L
  | .again h _ parent => Good E h L ∧ parent ∈ L

theorem eraseFlip_good {h : Heap Int} {L : List Addr} (hg : Good E h L) {s p : Addr} (hs : s ∈ L) (hp : p ∈ L) : NextGood E L (eraseFlip h s p) := by
  have h1 := hg.paint hs false
  unfold eraseFlip
  dsimp only
  split
  · exact h1.paint hp true
  · split
    · exact h1
    · exact ⟨h1, h1.par hp (by assumption)⟩

theorem eraseLeft_good {h : Heap Int} {L : List Addr} (hg : Good E h L) {s p : Addr} (hs : s ≠ 0 → s ∈ L) (hp : p ∈ L) {n : EraseNext Int} (e : eraseLeft (callbacks E fuel) h s p = some n) : NextGood E L n := by
  unfold eraseLeft at e
  by_cases h0 : s = 0
  · simp [h0] at e
  · replace hs := hs h0
    rw [if_neg h0] at e
    dsimp only at e
    split at e
    · split at e
      · cases e; exact eraseFlip_good hg hs hp
      · cases e1 : rightRotate (callbacks E fuel) h s none (some true) with
        | none => simp [e1] at e
        | some r1 =>
          obtain ⟨h1, c1⟩ := r1
          have g1 := (hg.rightRotate hs e1).1
          cases e2 : leftRotate (callbacks E fuel) h1 p (some true) none with
          | none => simp [e1, e2] at e
          | some r2 =>
            obtain ⟨h2, c2⟩ := r2
            have g2 := (g1.leftRotate hp e2).1
            simp [e1, e2] at e
            rw [← e]; exact g2.paint hs true
    · rename_i hb
      have hr : h.right s ∈ L := hg.right hs (by intro hz; simp [isBlackOrNull, hz] at hb)
      cases e2 : leftRotate (callbacks E fuel) h p (some true) none with
      | none => simp [e2] at e
      | some r2 =>
        obtain ⟨h2, c2⟩ := r2
        have g2 := (hg.leftRotate hp e2).1
        simp [e2] at e
        rw [← e]; exact g2.paint hr true

theorem eraseRight_good {h : Heap Int} {L : List Addr} (hg : Good E h L) {s p : Addr} (hs : s ≠ 0 → s ∈ L) (hp : p ∈ L) {n : EraseNext Int} (e : eraseRight (callbacks E fuel) h s p = some n) : NextGood E L n := by
  unfold eraseRight at e
  by_cases h0 : s = 0
  · simp [h0] at e
  · replace hs := hs h0
    rw [if_neg h0] at e
    dsimp only at e
    split at e
    · split at e
      · cases e; exact eraseFlip_good hg hs hp
      · cases e1 : leftRotate (callbacks E fuel) h s none (some true) with
        | none => simp [e1] at e
        | some r1 =>
          obtain ⟨h1, c1⟩ := r1
          have g1 := (hg.leftRotate hs e1).1
          cases e2 : rightRotate (callbacks E fuel) h1 p (some true) none with
          | none => simp [e1, e2] at e
          | some r2 =>
            obtain ⟨h2, c2⟩ := r2
            have g2 := (g1.rightRotate hp e2).1
            simp [e1, e2] at e
            rw [← e]; exact g2.paint hs true
    · rename_i hb
      have hr : h.left s ∈ L := hg.left hs (by intro hz; simp [isBlackOrNull, hz] at hb)
      cases e2 : rightRotate (callbacks E fuel) h p (some true) none with
      | none => simp [e2] at e
      | some r2 =>
        obtain ⟨h2, c2⟩ := r2
        have g2 := (hg.rightRotate hp e2).1
        simp [e2] at e
        rw [← e]; exact g2.paint hr true

theorem eraseStep_good {h : Heap Int} {L : List Addr} (hg : Good E h L) {x p : Addr} (hp : p ∈ L) {n : EraseNext Int} (e : eraseStep (callbacks E fuel) h x p = some n) : NextGood E L n := by
  unfold eraseStep at e
  dsimp only at e
  split at e
  · split at e
    · simp at e
    · split at e
      · cases e1 : leftRotate (callbacks E fuel) h p (some false) (some true) with
        | none => simp [e1] at e
        | some r1 =>
          obtain ⟨h1, c1⟩ := r1
          obtain ⟨g1, m1⟩ := hg.leftRotate hp e1
          simp [e1] at e
          exact eraseLeft_good g1 m1 hp e
      · exact eraseLeft_good hg (hg.right hp) hp e
  · split at e
    · simp at e
    · split at e
      · cases e1 : rightRotate (callbacks E fuel) h p (some false) (some true) with
        | none => simp [e1] at e
        | some r1 =>
          obtain ⟨h1, c1⟩ := r1
          obtain ⟨g1, m1⟩ := hg.rightRotate hp e1
          simp [e1] at e
          exact eraseRight_good g1 m1 hp e
      · exact eraseRight_good hg (hg.left hp) hp e

theorem eraseLoop_good {L : List Addr} : ∀ (n : Nat) {h h' : Heap Int} {x p : Addr}, Good E h L → (p ≠ 0 → p ∈ L) → eraseLoop (callbacks E fuel) n h x p = some h' → Good E h' L
  | 0, _, _, _, _, _, _, e => by simp [eraseLoop] at e
  | n + 1, h, h', x, p, hg, hp, e => by
    rw [eraseLoop] at e
    by_cases h0 : p = 0
    · rw [if_pos h0] at e; cases e; exact hg
    · rw [if_neg h0] at e
      cases es : eraseStep (callbacks E fuel) h x p with
      | none => simp [es] at e
      | some nx =>
        have hn := eraseStep_good hg (hp h0) es
        rw [es] at e
        cases nx with
        | stop g => cases e; exact hn
        | again g y q => exact eraseLoop_good n hn.1 (fun _ => hn.2) e

/-! ### Taking the node out -/

theorem right_mem {h : Heap Int} {x : Addr} {c : Bool} {l : Tree} {k : Ctx} : ∀ (P : Ctx) {y : Addr}, P ≠ [] → (∀ f, f ∈ P → f.isLeft = true) → RepC h (P ++ ⟨false, x, c, l⟩ :: k) y → h.right x ∈ post P
  | [], _, h0, _, _ => absurd rfl h0
  | ⟨false, _, _, _⟩ :: P, _, _, hP, _ => absurd (hP _ (List.mem_cons_self ..)) (by simp)
  | ⟨true, a, b, u⟩ :: P, y, _, hP, hr => by
    obtain ⟨_, _, _, _, _, _, h7⟩ := hr
    by_cases hPn : P = []
    · subst hPn
      obtain ⟨_, _, _, h4, _⟩ := h7
      rw [h4]; simp [post]
    · have := right_mem P hPn (fun f hf => hP f (List.mem_cons_of_mem _ hf)) h7
      simp [post, this]

/-- The path from the successor's old place up to the successor, as it stands when the first propagation runs. -/
theorem links_path {h g : Heap Int} {x s : Addr} {c : Bool} {l : Tree} {k : Ctx} : ∀ (P : Ctx) {y y' : Addr}, RepC h (P ++ ⟨false, x, c, l⟩ :: k) y → (∀ f, f ∈ P → f.isLeft = true) →
    (post P).Nodup → s ∉ post P → (∀ a, a ∈ post P → g.right a = h.right a) → (∀ a, a ∈ post P → g.par a = if a = h.right x then s else h.par a) →
    (∀ a, a ∈ post P → a ≠ up P → g.left a = h.left a) → (P ≠ [] → g.left (up P) = y') → Links g s P y'
  | [], _, _, _, _, _, _, _, _, _, _ => trivial
  | ⟨false, _, _, _⟩ :: P, _, _, _, hP, _, _, _, _, _, _ => absurd (hP _ (List.mem_cons_self ..)) (by simp)
  | ⟨true, a, b, u⟩ :: P, y, y', hr, hP, hnd, hs, h1, h2, h3, h4 => by
    obtain ⟨r1, r2, r3, r4, r5, r6, r7⟩ := hr
    have hP' : ∀ f, f ∈ P → f.isLeft = true := fun f hf => hP f (List.mem_cons_of_mem _ hf)
    simp only [post, List.cons_append, List.nodup_cons, List.nodup_append, List.mem_append, List.mem_cons] at hnd hs h1 h2 h3
    have hup : P ≠ [] → up P ∈ post P := by
      intro hn
      cases P with
      | nil => exact absurd rfl hn
      | cons f P =>
        have := up_mem (f := f) (k := P)
        rw [pre_left _ hP'] at this
        simpa using this
    refine ⟨by grind, ?_, h4 (by simp), (h1 a (Or.inl rfl)).trans r4, links_path P (y := a) r7 hP' hnd.2.2.1 (by grind) (fun b hb => h1 b (by simp [hb])) (fun b hb => h2 b (by simp [hb])) ?_ ?_⟩
    · rw [h2 a (Or.inl rfl)]
      by_cases hPn : P = []
      · subst hPn
        obtain ⟨_, _, _, q4, _⟩ := r7
        rw [if_pos q4.symm]; rfl
      · have hm := right_mem P hPn hP' r7
        rw [if_neg (by rintro rfl; grind), r2]
        cases P with
        | nil => exact absurd rfl hPn
        | cons f P => rfl
    · intro b hb hbn
      exact h3 b (by simp [hb]) (by show b ≠ a; rintro rfl; grind)
    · intro hPn
      rw [h3 _ (by simp [hup hPn]) (by show up P ≠ a; intro e; have := hup hPn; rw [e] at this; grind)]
      cases P with
      | nil => exact absurd rfl hPn
      | cons f P =>
        obtain ⟨d, a', b', u'⟩ := f
        have := hP' _ (List.mem_cons_self ..)
        simp only at this
        subst this
        exact r7.2.2.1

theorem at_zero {h : Heap Int} {k : Ctx} {t : Tree} (hat : At h k t) : (0 : Addr) ∉ t.inorder ++ (pre k ++ post k) := by
  intro hm
  refine (at_iff.1 hat).2.1.ne_zero 0 ?_ rfl
  rw [inorder_plug]
  simp only [List.mem_append] at hm ⊢
  grind

theorem at_nodup {h : Heap Int} {k : Ctx} {t : Tree} (hat : At h k t) : (t.inorder ++ (pre k ++ post k)).Nodup := by
  have := hat.2.2
  simp only [List.nodup_append, List.mem_append] at this ⊢
  grind

/-- Propagation from the hole to the root makes the whole tree right. -/
theorem good_propagate {g : Heap Int} {k : Ctx} {t : Tree} (hat : At g k t) (ht : Loc E g.aug t) (hc : LocC1 E g.aug k) (hf : k.length < fuel) {a : Addr} (ha : a = up k) :
    Good E ((callbacks E fuel).doPropagate g a 0) (plug k t).inorder := by
  subst ha
  obtain ⟨r1, r2⟩ := propagate_fix (E := E) k fuel g 0 t (links_zero hat.1) hc (at_nodup hat) (at_zero hat) hf
  rw [upq_zero] at r1 r2
  refine ⟨plug k t, at_iff.1 (at_aug _ hat), rfl, ?_⟩
  rw [loc_plug]
  refine ⟨r1, ht.congr (fun b hb => r2 b ?_ ?_)⟩
  · have := hat.2.2; simp only [List.nodup_append, List.mem_append] at this; grind
  · have := hat.2.2; simp only [List.nodup_append, List.mem_append] at this; grind

theorem remove_good {h h2 : Heap Int} {k : Ctx} {l r : Tree} {x : Addr} {c : Bool} (hat : At h k (.node l x c r)) (hl : Loc E h.aug (plug k (.node l x c r)))
    (hf : (plug k (.node l x c r)).height ≤ fuel) (hs : Shape (callbacks E fuel) h h2 k l r x c) : Good E h2 (pre k ++ (l.inorder ++ r.inorder) ++ post k) := by
  rw [loc_plug] at hl
  obtain ⟨hlc, _, hll, hlr⟩ := hl
  have hlen := length_height k (.node l x c r)
  have hht : (Tree.node l x c r).height = max l.height r.height + 1 := rfl
  rcases hs with ⟨u, g, hu, hA, ha, rfl⟩ | ⟨s, cs, R, g, rfl, hA, ha, rfl⟩ | ⟨P, s, cs, R, g1, g, hP0, hPl, rfl, hA, p1, p2, p3, p4, ha, rfl⟩
  · have hu' : Loc E h.aug u ∧ u.inorder = l.inorder ++ r.inorder := by
      rcases hu with ⟨rfl, rfl⟩ | ⟨rfl, rfl⟩
      · exact ⟨hlr, rfl⟩
      · exact ⟨hll, by simp [Tree.inorder]⟩
    have := good_propagate (E := E) (fuel := fuel) hA (by rw [ha, loc_recolor]; exact hu'.1) (by rw [ha]; exact hlc.rest) (by omega) rfl
    rw [inorder_plug, recolor_inorder, hu'.2] at this
    exact this
  · have hnd := hat.2.2
    simp only [Tree.inorder, List.nil_append, List.nodup_append, List.nodup_cons, List.mem_append, List.mem_cons] at hnd
    have haf : g.aug = upd h.aug s (h.aug x) := ha
    have hR : Loc E g.aug R := hlr.2.2.congr (fun b hb => by rw [haf]; exact upd_ne (by grind))
    have hl1 : Loc E g.aug l := hll.congr (fun b hb => by rw [haf]; exact upd_ne (by grind))
    have hk1 : LocC E g.aug k (some (g.aug s)) := by
      rw [show g.aug s = h.aug x by rw [haf]; exact upd_eq]
      exact LocC.congr hlc (fun b hb => by rw [haf]; exact upd_ne (by grind))
    have hht2 : (Tree.node Tree.nil s cs R).height = max Tree.nil.height R.height + 1 := rfl
    have := good_propagate (E := E) (fuel := fuel) hA (by rw [loc_recolor]; exact hR) ⟨hl1, hk1⟩ (by simp only [List.length_cons]; omega) rfl
    rw [plug, inorder_plug] at this
    simpa [Tree.inorder, up] using this
  · have hnd := hat.2.2
    have hpre := pre_left P hPl
    have hin : (plug P (.node .nil s cs R)).inorder = s :: (R.inorder ++ post P) := by rw [inorder_plug, hpre]; simp [Tree.inorder]
    have hin2 : (plug P (R.recolor true)).inorder = R.inorder ++ post P := by rw [inorder_plug, hpre]; simp
    rw [show (Tree.node l x c (plug P (.node .nil s cs R))).inorder = l.inorder ++ x :: (plug P (.node .nil s cs R)).inorder from rfl, hin] at hnd
    simp only [List.nodup_append, List.nodup_cons, List.mem_append, List.mem_cons] at hnd
    rw [loc_plug] at hlr
    obtain ⟨hPc, _, _, hR⟩ := hlr
    have hA' : At g (⟨false, s, c, l⟩ :: k) (plug P (R.recolor true)) := by
      rw [at_iff, ← plug_append]; exact at_iff.1 hA
    have hat1 : At h (P ++ ⟨false, x, c, l⟩ :: k) (.node .nil s cs R) := by
      rw [at_iff, plug_append]; exact at_iff.1 (at_down_right.1 hat)
    -- the first propagation
    let f0 := upd h.aug s (h.aug x)
    have hc0 : (callbacks E fuel).copy g1 x s = f0 := by
      show upd g1.aug s (g1.aug x) = _
      rw [p4]
    rw [hc0] at ha
    have hhP := length_height P (.node .nil s cs R)
    have h0 := at_zero hat
    rw [show (Tree.node l x c (plug P (.node .nil s cs R))).inorder = l.inorder ++ x :: (plug P (.node .nil s cs R)).inorder from rfl, hin] at h0
    simp only [List.mem_append, List.mem_cons] at h0
    have hup : up P ∈ post P := by
      cases P with
      | nil => exact absurd rfl hP0
      | cons f P =>
        have := up_mem (f := f) (k := P)
        rw [hpre] at this
        simpa using this
    have hxr := hat.2.1.2.2.2.1
    have hlk : Links { g1 with aug := f0 } s P R.top := by
      refine links_path P hat1.1 hPl (by grind) (by grind) ?_ (fun a _ => p1 a) ?_ (fun _ => ?_)
      · intro a ha
        show g1.right a = _
        rw [p3, if_neg (by rintro rfl; grind)]
      · intro a ha hne
        show g1.left a = _
        rw [p2, if_neg hne]
      · show g1.left _ = _
        rw [p2, if_pos rfl]
    obtain ⟨r1, r2⟩ := propagate_fix (E := E) P fuel { g1 with aug := f0 } s R hlk
      ((hPc.congr (f' := f0) (fun b hb => by rw [hpre] at hb; exact upd_ne (by rintro rfl; grind))).rest)
      (by rw [hpre]; simp only [List.nil_append, List.nodup_append]; grind) (by rw [hpre]; simp only [List.nil_append, List.mem_append]; grind) (by simp only [Tree.height] at hhP; omega)
    have hq : upq s P = up P := by
      cases P with
      | nil => exact absurd rfl hP0
      | cons f P => rfl
    rw [hq] at r1 r2
    rw [show propagate E fuel { g1 with aug := f0 } (up P) s = g.aug from ha.symm] at r1 r2
    have hout : ∀ a, a ∉ post P → a ≠ s → g.aug a = h.aug a := fun a h1 h2 => by
      rw [r2 a (by rw [hpre]; simp) h1]; exact upd_ne h2
    have hgs : g.aug s = h.aug x := by
      rw [r2 s (by rw [hpre]; simp) (by grind)]; exact upd_eq
    have hR1 : Loc E g.aug R := hR.congr (fun b hb => hout b (by grind) (by grind))
    have hl1 : Loc E g.aug l := hll.congr (fun b hb => hout b (by grind) (by grind))
    have hk1 : LocC E g.aug k (some (g.aug s)) := by
      rw [hgs]
      exact LocC.congr hlc (fun b hb => hout b (by grind) (by grind))
    have := good_propagate (E := E) (fuel := fuel) hA' (by rw [loc_plug, loc_recolor, tv_recolor]; exact ⟨r1, hR1⟩) ⟨hl1, hk1⟩
      (by simp only [List.length_cons, Tree.height] at hhP ⊢; omega) rfl
    rw [plug, inorder_plug] at this
    rw [hin]
    simpa [Tree.inorder, hin2, up] using this

/-- Two trees held by one heap are the same. -/
theorem rep_unique {h : Heap Int} : ∀ {t t' : Tree} {p p' : Addr}, Rep h p t → Rep h p' t' → t.top = t'.top → t = t'
  | .nil, .nil, _, _, _, _, _ => rfl
  | .nil, .node _ _ _ _, _, _, _, h2, e => absurd e.symm h2.1
  | .node _ _ _ _, .nil, _, _, h1, _, e => absurd e h1.1
  | .node l a c r, .node l' a' c' r', _, _, ⟨_, _, h3, h4, h5, h6, h7⟩, ⟨_, _, k3, k4, k5, k6, k7⟩, e => by
    have e : a = a' := e
    subst e
    rw [rep_unique h6 k6 (h3.symm.trans k3), rep_unique h7 k7 (h4.symm.trans k4), ← h5, ← k5]

theorem delete_good {h h' : Heap Int} {t : Tree} {x : Addr} (hh : Holds h t) (hrb : RedBlack t) (hx : x ∈ t.inorder) (hm : Maxed E h t) (hf : t.height ≤ fuel)
    (e : Rbtree.delete (callbacks E fuel) fuel h x = some h') : Good E h' (t.inorder.erase x) := by
  obtain ⟨k, l, c, r, rfl⟩ := exists_ctx t hx
  obtain ⟨h2, reb, e2, _, hR, hS⟩ := remove_shape (callbacks E fuel) (at_iff.2 hh) hrb hf
  have hL : (plug k (.node l x c r)).inorder.erase x = pre k ++ (l.inorder ++ r.inorder) ++ post k := by
    have hnd := hh.2.2
    rw [inorder_plug] at hnd ⊢
    simp only [Tree.inorder, List.append_assoc, List.cons_append] at hnd ⊢
    rw [← List.append_assoc, erase_mid]
    · simp
    · simp only [List.nodup_append, List.nodup_cons, List.mem_append, List.mem_cons] at hnd ⊢; grind
  have hg := remove_good (at_iff.2 hh) hm.loc hf hS
  rw [← hL] at hg
  have hxL : x ∉ (plug k (.node l x c r)).inorder.erase x := List.Nodup.not_mem_erase hh.2.2
  have hpo : ∀ {g : Heap Int} {L : List Addr}, x ∉ L → Good E g L → Good E (poison g x) L := by
    rintro g L hxL ⟨t', q1, q2, q3⟩
    refine ⟨t', q1.frame (fun a ha => ?_) rfl, q2, q3⟩
    have : a ≠ x := by rintro rfl; rw [q2] at ha; exact hxL ha
    simp [Agree, poison, Heap.setLeft, Heap.setRight, Heap.setPar, upd, this]
  unfold Rbtree.delete at e
  rw [e2] at e
  dsimp only at e
  by_cases hr : reb ≠ 0
  · rw [if_pos hr] at e
    obtain ⟨h3, e3, rfl⟩ := Option.map_eq_some_iff.1 e
    refine hpo hxL (eraseLoop_good fuel hg (fun _ => ?_) e3)
    rcases hR with ⟨h0, _⟩ | ⟨k2, n0, rfl, q1, _, q3, _⟩
    · exact absurd h0 hr
    · rw [hL, ← q3, inorder_plug]
      cases k2 with
      | nil => exact absurd rfl n0
      | cons f k2 =>
        rcases up_mem (f := f) (k := k2) with hm | hm <;> simp [hm]
  · rw [if_neg hr] at e
    cases e
    exact hpo hxL hg

/-- C29. Deletion takes out the node and keeps everything a query needs: the order, the maxima, and the leftmost node. -/
theorem delete_maxed {h : Heap Int} {t : Tree} {x : Addr} (hh : Holds h t) (hrb : RedBlack t) (hs : Sorted E t.inorder) (hm : Maxed E h t) (hx : x ∈ t.inorder) (hf : t.height ≤ fuel) :
    ∃ h' lm' t', delete E fuel h (t.inorder.headD 0) x = some (h', lm') ∧ Holds h' t' ∧ RedBlack t' ∧ t'.inorder = t.inorder.erase x ∧
      Sorted E t'.inorder ∧ Maxed E h' t' ∧ lm' = t'.inorder.headD 0 := by
  obtain ⟨h', lm, t', res, e, q1, q2, q3, q4⟩ := cached_delete_correct (callbacks E fuel) hh hrb hx hf
  refine ⟨h', lm, t', ?_, q1, q2, q3, ?_, ?_, q4⟩
  · unfold delete; rw [e]; rfl
  · rw [q3]; exact List.Pairwise.sublist List.erase_sublist hs
  · have hd : Rbtree.delete (callbacks E fuel) fuel h x = some h' := by
      unfold cachedDelete at e
      by_cases hlm : t.inorder.headD 0 ≠ x
      · rw [if_pos hlm] at e
        obtain ⟨g, eg, e'⟩ := Option.map_eq_some_iff.1 e
        cases e'; exact eg
      · rw [if_neg hlm] at e
        cases en : Rbtree.next h fuel x with
        | none => simp [en] at e
        | some n =>
          simp only [en] at e
          obtain ⟨g, eg, e'⟩ := Option.map_eq_some_iff.1 e
          cases e'; exact eg
    obtain ⟨t2, w1, w2, w3⟩ := delete_good hh hrb hx hm hf hd
    have : t2 = t' := rep_unique w1.2.1 q1.2.1 (w1.1.symm.trans q1.1)
    subst this
    exact w3.maxed

end Bfdev.Segtree

import Verif.Dlist.Lemmas
import Verif.Common.Nodup
/-!
C17: circular list operations do on sequences what they say, over every history, and leave every other list alone.
-/
set_option linter.unusedSimpArgs false
namespace Bfdev.Dlist

private theorem nodup_cons {s : Heap} {c : List Addr} {W : List (List Addr)} (h : World s (c :: W)) : (c ++ W.flatten).Nodup := by
  simpa using h.nodup

set_option maxHeartbeats 2000000 in
/-- C17: in every memory made of disjoint rings, an operation produces exactly the rings its sequence description gives
(both directions of links, hence traversals in both directions), and no other ring changes. -/
theorem step_sound {s : Heap} {W W' : List (List Addr)} {op : Op} (hw : World s W) (hs : Step W op W') : World (op.run s) W' := by
  induction hs with
  | perm hp _ ih => exact ih (world_perm hp hw)
  | @headInit W h hn =>
    show World (Dlist.headInit s h) _
    obtain ⟨h1, h2⟩ := ring_headInit s h
    have hnd := List.nodup_cons.2 ⟨hn, hw.nodup⟩
    exact world_cons hw h1 (fun z hz => h2 z (by nd)) (by nd)
  | @add W l a r n hn =>
    show World (Dlist.add s a n) _
    have hnd := nodup_cons hw
    have hr := (ring_rotate s l a r).1 (hw.ring _ (by simp))
    replace hnd := List.nodup_cons.2 ⟨hn, hnd⟩
    obtain ⟨h1, h2⟩ := ring_add (n := n) hr (by nd) (by nd)
    exact world_one hw ((ring_rotate _ l a (n :: r)).2 (by simpa using h1)) (fun z hz => h2 z (by nd)) (by nd)
  | @addPrev W l a r n hn =>
    show World (Dlist.addPrev s a n) _
    have hnd := nodup_cons hw
    have hr := (ring_rotate s l a r).1 (hw.ring _ (by simp))
    replace hnd := List.nodup_cons.2 ⟨hn, hnd⟩
    obtain ⟨h1, h2⟩ := ring_addPrev (n := n) hr (by nd) (by nd)
    refine world_one hw (ring_before h1) (fun z hz => h2 z (by nd)) ?_
    refine (((before_perm l a r [n]).append_right _).nodup_iff).2 ?_
    nd
  | @del W l x r hl =>
    show World (Dlist.del s x) _
    have hnd := nodup_cons hw
    have hr := (ring_rotate s l x r).1 (hw.ring _ (by simp))
    obtain ⟨h1, h2⟩ := ring_del hr (by nd) (by simp [hl])
    refine world_one hw ?_ (fun z hz => h2 z (by nd)) (by nd)
    obtain ⟨b, l', rfl⟩ := List.exists_cons_of_ne_nil hl
    simpa using (ring_rotate _ r b l').1 h1
  | @delInit W l x r hl =>
    show World (Dlist.delInit s x) _
    have hnd := nodup_cons hw
    have hr := (ring_rotate s l x r).1 (hw.ring _ (by simp))
    obtain ⟨h1, h2⟩ := ring_deluf hr (by nd) (by simp [hl])
    obtain ⟨i1, i2⟩ := ring_headInit (deluf s x) x
    have hl' : Ring (deluf s x) (l ++ r) := by
      obtain ⟨b, l', rfl⟩ := List.exists_cons_of_ne_nil hl
      simpa using (ring_rotate _ r b l').1 h1
    exact world_cons (world_one hw hl' (fun z hz => h2 z (by nd)) (by nd)) i1 (fun z hz => i2 z (by nd)) (by nd)
  | @replace W l o r n hl hn =>
    show World (Dlist.replace s o n) _
    have hnd := nodup_cons hw
    have hr := (ring_rotate s l o r).1 (hw.ring _ (by simp))
    replace hnd := List.nodup_cons.2 ⟨hn, hnd⟩
    obtain ⟨h1, h2⟩ := ring_replace (n := n) hr (by nd) (by simp at hl ⊢; exact fun a b => hl b a) (by nd)
    exact world_one hw ((ring_rotate _ l n r).2 h1) (fun z hz => h2 z (by nd)) (by nd)
  | @replaceInit W l o r n hl hn =>
    show World (Dlist.replaceInit s o n) _
    have hnd := nodup_cons hw
    have hr := (ring_rotate s l o r).1 (hw.ring _ (by simp))
    replace hnd := List.nodup_cons.2 ⟨hn, hnd⟩
    obtain ⟨h1, h2⟩ := ring_replace (n := n) hr (by nd) (by simp at hl ⊢; exact fun a b => hl b a) (by nd)
    obtain ⟨i1, i2⟩ := ring_headInit (Dlist.replace s o n) o
    exact world_cons (world_one hw ((ring_rotate _ l n r).2 h1) (fun z hz => h2 z (by nd)) (by nd)) i1
      (fun z hz => i2 z (by nd)) (by nd)
  | @moveSame W l x r l' a r' hl he =>
    show World (Dlist.move s a x) _
    have hnd := nodup_cons hw
    have hr := (ring_rotate s l x r).1 (hw.ring _ (by simp))
    obtain ⟨h1, h2⟩ := ring_del hr (by nd) (by simp [hl])
    have hl' : Ring (Dlist.del s x) (l' ++ a :: r') := by
      rw [← he]
      obtain ⟨b, l', rfl⟩ := List.exists_cons_of_ne_nil hl
      simpa using (ring_rotate _ r b l').1 h1
    have hp : (l ++ x :: r).Perm (x :: (l' ++ a :: r')) := by rw [← he]; exact List.perm_middle
    have hnd1 := hnd
    replace hnd : (x :: (l' ++ a :: r') ++ W.flatten).Nodup := ((hp.append_right _).nodup_iff).1 hnd
    obtain ⟨a1, a2⟩ := ring_add (n := x) ((ring_rotate _ l' a r').1 hl') (by nd) (by nd)
    exact world_one hw ((ring_rotate _ l' a (x :: r')).2 (by simpa [Dlist.move] using a1)) (fun z hz => (h2 z (by ndm hnd1, hz)).trans (a2 z (by nd))) (by nd)
  | @moveOther W l x r l' a r' hl =>
    show World (Dlist.move s a x) _
    have hnd := nodup_cons hw
    simp only [List.flatten_cons] at hnd
    have hr := (ring_rotate s l x r).1 (hw.ring _ (by simp))
    obtain ⟨h1, h2⟩ := ring_del hr (by nd) (by simp [hl])
    have hl' : Ring (Dlist.del s x) (l ++ r) := by
      obtain ⟨b, l', rfl⟩ := List.exists_cons_of_ne_nil hl
      simpa using (ring_rotate _ r b l').1 h1
    have ha : Ring (Dlist.del s x) (a :: (r' ++ l')) :=
      ring_frame ((ring_rotate s l' a r').1 (hw.ring _ (by simp))) (fun z hz => h2 z (by nd))
    obtain ⟨a1, a2⟩ := ring_add (n := x) ha (by nd) (by nd)
    have hW : World (Dlist.move s a x) ((l' ++ a :: x :: r') :: W) :=
      world_one (world_tail hw) ((ring_rotate _ l' a (x :: r')).2 (by simpa [Dlist.move] using a1))
        (fun z hz => (h2 z (by nd)).trans (a2 z (by nd))) (by nd)
    exact world_cons (s' := Dlist.move s a x) hW (ring_frame hl' (fun z hz => a2 z (by nd))) (fun z _ => ⟨rfl, rfl⟩) (by nd)
  | @movePrevSame W l x r l' a r' hl he =>
    show World (Dlist.movePrev s a x) _
    have hnd := nodup_cons hw
    have hr := (ring_rotate s l x r).1 (hw.ring _ (by simp))
    obtain ⟨h1, h2⟩ := ring_del hr (by nd) (by simp [hl])
    have hl' : Ring (Dlist.del s x) (l' ++ a :: r') := by
      rw [← he]
      obtain ⟨b, l', rfl⟩ := List.exists_cons_of_ne_nil hl
      simpa using (ring_rotate _ r b l').1 h1
    have hp : (l ++ x :: r).Perm (x :: (l' ++ a :: r')) := by rw [← he]; exact List.perm_middle
    have hnd1 := hnd
    replace hnd : (x :: (l' ++ a :: r') ++ W.flatten).Nodup := ((hp.append_right _).nodup_iff).1 hnd
    obtain ⟨a1, a2⟩ := ring_addPrev (n := x) ((ring_rotate _ l' a r').1 hl') (by nd) (by nd)
    refine world_one hw (ring_before a1) (fun z hz => (h2 z (by ndm hnd1, hz)).trans (a2 z (by nd))) ?_
    refine (((before_perm l' a r' [x]).append_right _).nodup_iff).2 ?_
    nd
  | @movePrevOther W l x r l' a r' hl =>
    show World (Dlist.movePrev s a x) _
    have hnd := nodup_cons hw
    simp only [List.flatten_cons] at hnd
    have hr := (ring_rotate s l x r).1 (hw.ring _ (by simp))
    obtain ⟨h1, h2⟩ := ring_del hr (by nd) (by simp [hl])
    have hl' : Ring (Dlist.del s x) (l ++ r) := by
      obtain ⟨b, l', rfl⟩ := List.exists_cons_of_ne_nil hl
      simpa using (ring_rotate _ r b l').1 h1
    have ha : Ring (Dlist.del s x) (a :: (r' ++ l')) :=
      ring_frame ((ring_rotate s l' a r').1 (hw.ring _ (by simp))) (fun z hz => h2 z (by nd))
    obtain ⟨a1, a2⟩ := ring_addPrev (n := x) ha (by nd) (by nd)
    have hp := before_perm l' a r' [x]
    have hW : World (Dlist.movePrev s a x) (before l' a r' [x] :: W) :=
      world_one (world_tail hw) (ring_before a1)
        (fun z hz => (h2 z (by nd)).trans (a2 z (by nd))) (((hp.append_right _).nodup_iff).2 (by nd))
    refine world_cons (s' := Dlist.movePrev s a x) hW (ring_frame hl' (fun z hz => a2 z (by nd))) (fun z _ => ⟨rfl, rfl⟩) ?_
    simp only [List.flatten_cons]
    refine ((((hp.append_right _).append_left _)).nodup_iff).2 ?_
    nd
  | @swapSame W c x y hx hy hne hlen =>
    show World (Dlist.swap s x y) _
    have hnd := nodup_cons hw
    -- rotate so that the ring starts at `x`
    obtain ⟨l, r, rfl⟩ := List.append_of_mem hx
    have hr := (ring_rotate s l x r).1 (hw.ring _ (by simp))
    have hy' : y ∈ r ++ l := by grind
    obtain ⟨u, v, huv⟩ := List.append_of_mem hy'
    rw [huv] at hr
    have hp : (l ++ x :: r).Perm (x :: (u ++ y :: v)) := by
      rw [← huv]; exact List.perm_middle.trans ((List.perm_append_comm).cons _)
    have hnd1 := hnd
    replace hnd : (x :: (u ++ y :: v) ++ W.flatten).Nodup := ((hp.append_right _).nodup_iff).1 hnd
    have hl' : (x :: (u ++ y :: v)).length = (l ++ x :: r).length := hp.length_eq.symm
    obtain ⟨s1, s2⟩ := ring_swap_same (by simpa using hr) (by nd) (by
      intro e
      simp only [List.append_eq_nil_iff] at e
      rw [← hl', e.1, e.2] at hlen
      simp at hlen)
    refine world_one hw ?_ (fun z hz => s2 z (by nd)) ?_
    · have e1 : (x :: (u ++ y :: v)).map (exchange x y) = y :: u ++ x :: v := by
        have hu : u.map (exchange x y) = u := map_exchange_id (by nd) (by nd)
        have hv : v.map (exchange x y) = v := map_exchange_id (by nd) (by nd)
        have hne' : y ≠ x := fun e => hne e.symm
        simp [hu, hv, exchange, hne']
      have e2 : (x :: (r ++ l)).map (exchange x y) = y :: u ++ x :: v := by rw [huv]; exact e1
      rw [← e2] at s1
      simp only [List.map_cons, List.map_append] at s1 ⊢
      exact (ring_rotate _ _ _ _).2 s1
    · have hm : ∀ z, z ∈ (l ++ x :: r).map (exchange x y) → z ∈ l ++ x :: r := fun z hz => exchange_mem hx hy hz
      have hn := exchange_nodup x y (List.nodup_append.1 hnd1).1
      rw [List.nodup_append] at hnd1 ⊢
      exact ⟨hn, hnd1.2.1, fun a ha b hb => hnd1.2.2 a (hm a ha) b hb⟩
  | @swapOther W c d x y hx hy hlc hld =>
    show World (Dlist.swap s x y) _
    have hnd := nodup_cons hw
    simp only [List.flatten_cons] at hnd
    obtain ⟨l, r, rfl⟩ := List.append_of_mem hx
    obtain ⟨l', r', rfl⟩ := List.append_of_mem hy
    have hrx := (ring_rotate s l x r).1 (hw.ring _ (by simp))
    have hry := (ring_rotate s l' y r').1 (hw.ring _ (by simp))
    obtain ⟨s1, s2, s3⟩ := ring_swap_other hrx hry (by nd) (by intro e; simp at e hlc; simp [e.1, e.2] at hlc) (by intro e; simp at e hld; simp [e.1, e.2] at hld)
    have hex : exchange x y x = y := by simp [exchange]
    have hey : exchange x y y = x := by simp only [exchange]; grind
    have h1 : l.map (exchange x y) = l := map_exchange_id (by nd) (by nd)
    have h2 : r.map (exchange x y) = r := map_exchange_id (by nd) (by nd)
    have h3 : l'.map (exchange x y) = l' := map_exchange_id (by nd) (by nd)
    have h4 : r'.map (exchange x y) = r' := map_exchange_id (by nd) (by nd)
    simp only [List.map_append, List.map_cons, hex, hey, h1, h2, h3, h4]
    have hW : World (Dlist.swap s x y) ((l' ++ x :: r') :: W) :=
      world_one (world_tail hw) ((ring_rotate _ _ _ _).2 s2) (fun z hz => s3 z (by nd)) (by nd)
    exact world_cons (s' := Dlist.swap s x y) hW ((ring_rotate _ _ _ _).2 s1) (fun z _ => ⟨rfl, rfl⟩) (by nd)
  | @splice W l a r g ys hys =>
    have hnd := nodup_cons hw
    simp only [List.flatten_cons] at hnd
    obtain ⟨y, ys, rfl⟩ := List.exists_cons_of_ne_nil hys
    have hr := (ring_rotate s l a r).1 (hw.ring _ (by simp))
    have hg := hw.ring (g :: y :: ys) (by simp)
    obtain ⟨h1, h2⟩ := ring_relocate hr hg (by nd)
    have he : checkEmpty s g = false := by simp only [checkEmpty, beq_eq_false_iff_ne]; rw [hg.1]; grind
    show World (Dlist.splice s a g) _
    simp only [Dlist.splice, he]
    refine world_cons (world_tail (world_tail hw)) (by simpa using (ring_rotate _ l a (y :: ys ++ r)).2 (by simpa using h1)) (fun z hz => h2 z (by nd)) (by nd)
  | @splicePrev W l a r g ys hys =>
    have hnd := nodup_cons hw
    simp only [List.flatten_cons] at hnd
    obtain ⟨y, ys, rfl⟩ := List.exists_cons_of_ne_nil hys
    have hr := (ring_rotate s l a r).1 (hw.ring _ (by simp))
    have hg := hw.ring (g :: y :: ys) (by simp)
    obtain ⟨h1, h2⟩ := ring_relocatePrev hr hg (by nd)
    have he : checkEmpty s g = false := by simp only [checkEmpty, beq_eq_false_iff_ne]; rw [hg.1]; grind
    show World (Dlist.splicePrev s a g) _
    simp only [Dlist.splicePrev, he]
    refine world_cons (world_tail (world_tail hw)) (ring_before (by simpa using h1)) (fun z hz => h2 z (by nd)) ?_
    refine (((before_perm l a r (y :: ys)).append_right _).nodup_iff).2 ?_
    nd
  | @spliceEmpty W a g =>
    have hg := hw.ring [g] (by simp)
    have he : checkEmpty s g = true := by simp [checkEmpty, hg.1]
    show World (Dlist.splice s a g) _
    simpa [Dlist.splice, he] using hw
  | @splicePrevEmpty W a g =>
    have hg := hw.ring [g] (by simp)
    have he : checkEmpty s g = true := by simp [checkEmpty, hg.1]
    show World (Dlist.splicePrev s a g) _
    simpa [Dlist.splicePrev, he] using hw
  | @spliceInit W l a r g ys =>
    have hnd := nodup_cons hw
    simp only [List.flatten_cons] at hnd
    have hr := (ring_rotate s l a r).1 (hw.ring _ (by simp))
    have hg := hw.ring (g :: ys) (by simp)
    cases ys with
    | nil =>
      have he : checkEmpty s g = true := by simp [checkEmpty, hg.1]
      show World (Dlist.spliceInit s a g) _
      simpa [Dlist.spliceInit, he] using hw
    | cons y ys =>
      obtain ⟨h1, h2⟩ := ring_relocate hr hg (by nd)
      have he : checkEmpty s g = false := by simp only [checkEmpty, beq_eq_false_iff_ne]; rw [hg.1]; grind
      show World (Dlist.spliceInit s a g) _
      simp only [Dlist.spliceInit, Dlist.splice, he]
      obtain ⟨i1, i2⟩ := ring_headInit (relocate s a (s.next a) g) g
      have hW := world_cons (world_tail (world_tail hw)) (i1) (fun z hz => (h2 z (by nd)).trans (i2 z (by nd))) (by nd)
      exact world_cons (s' := Dlist.headInit (relocate s a (s.next a) g) g) hW
        (ring_frame (by simpa using (ring_rotate _ l a (y :: ys ++ r)).2 (by simpa using h1)) (fun z hz => i2 z (by nd))) (fun z _ => ⟨rfl, rfl⟩) (by nd)
  | @spliceTailInit W l a r g ys =>
    have hnd := nodup_cons hw
    simp only [List.flatten_cons] at hnd
    have hr := (ring_rotate s l a r).1 (hw.ring _ (by simp))
    have hg := hw.ring (g :: ys) (by simp)
    cases ys with
    | nil =>
      have he : checkEmpty s g = true := by simp [checkEmpty, hg.1]
      have hb : before l a r [] = l ++ a :: r := by unfold before; split <;> simp_all
      show World (Dlist.spliceTailInit s a g) _
      simpa [Dlist.spliceTailInit, he, hb] using hw
    | cons y ys =>
      obtain ⟨h1, h2⟩ := ring_relocatePrev hr hg (by nd)
      have he : checkEmpty s g = false := by simp only [checkEmpty, beq_eq_false_iff_ne]; rw [hg.1]; grind
      show World (Dlist.spliceTailInit s a g) _
      simp only [Dlist.spliceTailInit, Dlist.splicePrev, he]
      obtain ⟨i1, i2⟩ := ring_headInit (relocate s (s.prev a) a g) g
      have hp := before_perm l a r (y :: ys)
      have hW := world_cons (world_tail (world_tail hw)) (i1) (fun z hz => (h2 z (by nd)).trans (i2 z (by nd))) (by nd)
      refine world_cons (s' := Dlist.headInit (relocate s (s.prev a) a g) g) hW
        (ring_frame (ring_before (by simpa using h1)) (fun z hz => i2 z (by
          have := hp.mem_iff.1 hz
          grind))) (fun z _ => ⟨rfl, rfl⟩) ?_
      simp only [List.flatten_cons]
      refine ((hp.append_right _).nodup_iff).2 ?_
      nd

/-- C17, histories: every sequence of operations explained on sequences is carried out faithfully by the links. -/
theorem list_histories {s : Heap} {W W' : List (List Addr)} {ops : List Op} (hw : World s W) (hs : Steps W ops W') :
    World (ops.foldl Op.run s) W' := by
  induction hs generalizing s with
  | nil => exact hw
  | cons h _ ih => exact ih (step_sound hw h)

/-! ### Traversals -/

theorem walk_next {s : Heap} {h : Addr} : ∀ {xs : List Addr} {a : Addr}, Links s a xs h → h ∉ xs → ∀ fuel, xs.length < fuel →
    walkFrom s.next h fuel (s.next a) = some xs := by
  intro xs
  induction xs with
  | nil =>
    intro a hl hn fuel hf
    obtain ⟨f, rfl⟩ : ∃ f, fuel = f + 1 := ⟨fuel - 1, by simp at hf; omega⟩
    simp [walkFrom, hl.1]
  | cons x xs ih =>
    intro a hl hn fuel hf
    obtain ⟨f, rfl⟩ : ∃ f, fuel = f + 1 := ⟨fuel - 1, by simp at hf; omega⟩
    rw [hl.1]
    simp only [List.mem_cons, not_or] at hn
    simp only [walkFrom, if_neg (fun e => hn.1 (Eq.symm e) : ¬ x = h)]
    rw [ih hl.2.2 hn.2 f (by simp at hf; omega)]
    rfl

theorem walk_prev {s : Heap} {h : Addr} : ∀ {xs : List Addr} {b : Addr}, Links s h xs b → h ∉ xs → ∀ fuel, xs.length < fuel →
    walkFrom s.prev h fuel (s.prev b) = some xs.reverse := by
  intro xs
  generalize hlen : xs.length = m
  induction m generalizing xs with
  | zero =>
    obtain rfl := List.eq_nil_of_length_eq_zero hlen
    intro b hl hn fuel hf
    obtain ⟨f, rfl⟩ : ∃ f, fuel = f + 1 := ⟨fuel - 1, by omega⟩
    simp [walkFrom, hl.2]
  | succ m ih =>
    rcases List.eq_nil_or_concat xs with rfl | ⟨xs, x, rfl⟩
    · simp at hlen
    rw [List.concat_eq_append] at *
    intro b hl hn fuel hf
    obtain ⟨f, rfl⟩ : ∃ f, fuel = f + 1 := ⟨fuel - 1, by omega⟩
    rw [links_append] at hl
    rw [hl.2.2]
    have h1 : ¬ x = h := by grind
    simp only [walkFrom, if_neg h1]
    rw [ih (by simpa using hlen) hl.1 (by grind) f (by omega)]
    simp

/-- C17: walking a list forward visits its nodes in order, walking it backward visits them in reverse order, and both walks end. -/
theorem traversals {s : Heap} {h : Addr} {xs : List Addr} (hr : Ring s (h :: xs)) (hnd : (h :: xs).Nodup) (fuel : Nat)
    (hf : xs.length < fuel) : forEach s h fuel = some xs ∧ forEachReverse s h fuel = some xs.reverse :=
  ⟨walk_next hr (by grind) fuel hf, walk_prev hr (by grind) fuel hf⟩

/-- C17: the emptiness, first, last and only-element tests answer the question they are named after. -/
theorem checks {s : Heap} {h : Addr} {xs : List Addr} (hr : Ring s (h :: xs)) (hnd : (h :: xs).Nodup) :
    (checkEmpty s h = true ↔ xs = []) ∧
      ∀ x ∈ xs, (checkFirst s h x = true ↔ xs.head? = some x) ∧ (checkEnd s h x = true ↔ xs.getLast? = some x) ∧
        (checkAnother s h x = true ↔ xs = [x]) := by
  have hchk : ∀ x ∈ xs, (s.prev x = h ↔ xs.head? = some x) ∧ (s.next x = h ↔ xs.getLast? = some x) := by
    intro x hx
    obtain ⟨l, r, rfl⟩ := List.append_of_mem hx
    have hr' := hr
    rw [Ring, links_append] at hr'
    constructor
    · have hm := links_prev_mem hr'.1
      cases l with
      | nil => simp [hr'.1.2]
      | cons y l =>
        have hm := links_prev_mem hr'.1.2.2
        constructor
        · intro e; rw [e] at hm; grind
        · intro e; simp at e; grind
    · cases r with
      | nil => simp [hr'.2.1]
      | cons y r =>
        rw [hr'.2.1]
        have h1 : (l ++ x :: y :: r).getLast? = (y :: r).getLast? := by simp [List.getLast?_append, List.getLast?_cons]
        constructor
        · intro e; grind
        · intro e
          rw [h1] at e
          have := List.mem_of_getLast? e
          grind
  refine ⟨?_, fun x hx => ⟨?_, ?_, ?_⟩⟩
  · cases xs with
    | nil => simp [checkEmpty, hr.1]
    | cons x t => simp only [checkEmpty, hr.1, beq_iff_eq]; grind
  · simpa [checkFirst] using (hchk x hx).1
  · simpa [checkEnd] using (hchk x hx).2
  · cases xs with
    | nil => simp at hx
    | cons y t =>
      simp only [checkAnother, Bool.and_eq_true, beq_iff_eq, hr.1]
      constructor
      · rintro ⟨rfl, e⟩
        cases t with
        | nil => rfl
        | cons z t =>
          have := links_prev_mem hr.2.2.2.2
          rw [e] at this
          grind
      · intro e
        simp only [List.cons.injEq] at e
        obtain ⟨rfl, rfl⟩ := e
        exact ⟨rfl, hr.2.2.2⟩

/-- C17, safe iteration: a loop that removes every entry it is handed sees every entry in order and leaves an empty list;
the removed entries carry the poison links, everything else is untouched. -/
theorem drain_all {s : Heap} {h : Addr} {xs : List Addr} (hr : Ring s (h :: xs)) (hnd : (h :: xs).Nodup) (fuel : Nat)
    (hf : xs.length < fuel) : ∃ s', drain s h fuel = some (xs, s') ∧ Ring s' [h] ∧ (∀ z, z ∉ h :: xs → Same s s' z) ∧
      ∀ x ∈ xs, s'.next x = 0x100 ∧ s'.prev x = 0x110 := by
  unfold drain
  induction xs generalizing s fuel with
  | nil =>
    obtain ⟨f, rfl⟩ : ∃ f, fuel = f + 1 := ⟨fuel - 1, by simp at hf; omega⟩
    refine ⟨s, by simp [drainFrom, hr.1], hr, fun _ _ => ⟨rfl, rfl⟩, by simp⟩
  | cons x xs ih =>
    obtain ⟨f, rfl⟩ : ∃ f, fuel = f + 1 := ⟨fuel - 1, by simp at hf; omega⟩
    have hx := (ring_rotate s [h] x xs).1 hr
    obtain ⟨d1, d2⟩ := ring_del hx (by grind) (by simp)
    have hr' : Ring (del s x) (h :: xs) := by simpa using (ring_rotate _ xs h []).1 d1
    have hne : x ≠ h := by grind
    obtain ⟨s', e1, e2, e3, e4⟩ := ih hr' (by grind) f (by simp at hf; omega)
    have hxn : s.next x = (del s x).next h := by
      cases xs with
      | nil => rw [hr'.1, hr.2.2.1]
      | cons y t => rw [hr'.1, hr.2.2.1]
    have hxp : (del s x).next x = 0x100 ∧ (del s x).prev x = 0x110 := by
      simp [del, Heap.setNext, Heap.setPrev]
    refine ⟨s', ?_, e2, fun z hz => (d2 z (by grind)).trans (e3 z (by grind)), fun z hz => ?_⟩
    · rw [hr.1, drainFrom, if_neg hne]
      simp only
      rw [hxn, e1]; rfl
    · rcases List.mem_cons.1 hz with rfl | hz
      · have := e3 z (by grind)
        rw [this.1, this.2]; exact hxp
      · exact e4 z hz

/-! ### Non-vacuity and limits -/

/-- Two lists `1 → 2 → 3` and `7 → 8` built from scratch. -/
def sample : List Op := [.headInit 1, .add 1 2, .addPrev 1 3, .headInit 7, .add 7 8]

/-- A history exercising insertion at both ends and a splice: the description is reachable and concrete. -/
example (s : Heap) : World ((sample ++ [Op.spliceInit 2 7, Op.swap 2 3]).foldl Op.run s) [[1, 3, 8, 2], [7]] := by
  apply list_histories (W := []) ⟨by simp, by simp⟩
  refine .cons (Step.headInit (by simp)) ?_
  refine .cons (Step.add (l := []) (r := []) (by simp)) ?_
  refine .cons (Step.addPrev (l := []) (r := [2]) (by simp)) ?_
  refine .cons (Step.headInit (by simp [before])) ?_
  refine .cons (Step.add (l := []) (r := []) (by simp [before])) ?_
  refine .cons (Step.perm (List.Perm.swap ..) (Step.spliceInit (l := [1]) (r := [3]))) ?_
  refine .cons (Step.swapSame (by simp) (by simp) (by simp) (by simp)) ?_
  exact .nil

/-- Splicing a non-empty list into itself is outside the contract: it cuts the nodes off from the head. -/
theorem self_splice_breaks (s : Heap) (h : Ring s [1, 2, 3]) : (splice s 1 1).next 3 = 2 ∧ (splice s 1 1).prev 2 = 3 := by
  obtain ⟨h1, h2, h3, h4, h5, h6⟩ := h
  simp [splice, checkEmpty, relocate, Heap.setNext, Heap.setPrev, upd, h1, h2, h3, h4, h5, h6]

end Bfdev.Dlist

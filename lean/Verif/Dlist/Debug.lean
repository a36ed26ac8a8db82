import Verif.Dlist.Props
/-!
The checks of `BFDEV_DEBUG_LIST`, which the default configuration turns on (CMakeLists.txt:58): `src/list-debug.c` and the operations of `include/bfdev/list.h` that
call them. A failed check is reported (not modelled) and the operation returns without touching memory.
-/
set_option linter.unusedSimpArgs false
namespace Bfdev.Dlist

/-- `bfdev_list_check_add`, list-debug.c:14-46. -/
def debugAdd (s : Heap) (prev next newn : Addr) : Bool :=
  if s.next prev ≠ next then false
  else if s.prev next ≠ prev then false
  else if newn = prev ∨ newn = next then false
  else true

/-- `bfdev_list_check_del`, list-debug.c:48-70. -/
def debugDel (s : Heap) (node : Addr) : Bool :=
  if s.next node = 0x100 then false
  else if s.prev node = 0x110 then false
  else true

/-- `bfdev_list_insert`, list.h:52-65, with its check. -/
def insertD (s : Heap) (prev next node : Addr) : Heap := if !debugAdd s prev next node then s else insert s prev next node

/-- `bfdev_list_add`, list.h:82-86, with the check. -/
def addD (s : Heap) (node newn : Addr) : Heap := insertD s node (s.next node) newn

/-- `bfdev_list_add_prev`, list.h:93-97, with the check. -/
def addPrevD (s : Heap) (node newn : Addr) : Heap := insertD s (s.prev node) node newn

/-- `bfdev_list_del`, list.h:114-125, with its check. -/
def delD (s : Heap) (node : Addr) : Heap := if !debugDel s node then s else del s node

/-- `bfdev_list_move`, list.h:246-251, with the checks. -/
def moveD (s : Heap) (head node : Addr) : Heap := addD (delD s node) head node

/-- `bfdev_list_move_prev`, list.h:258-263, with the checks. -/
def movePrevD (s : Heap) (head node : Addr) : Heap := addPrevD (delD s node) head node

/-- `bfdev_list_swap`, list.h:270-282, with the checks. -/
def swapD (s : Heap) (node1 node2 : Addr) : Heap :=
  let prev := s.prev node2
  let s := delD s node2
  let s := replace s node1 node2
  let prev := if prev = node1 then node2 else prev
  addD s prev node1

/-- The operations as the default configuration compiles them; the ones not named have no check. -/
def Op.runD (s : Heap) : Op → Heap
  | .add a n => addD s a n
  | .addPrev a n => addPrevD s a n
  | .del x => delD s x
  | .move a x => moveD s a x
  | .movePrev a x => movePrevD s a x
  | .swap x y => swapD s x y
  | op => op.run s

/-- The nodes an operation is called with. -/
def Op.nodes : Op → List Addr
  | .headInit h | .del h | .delInit h => [h]
  | .add a n | .addPrev a n | .replace a n | .replaceInit a n | .move a n | .movePrev a n | .swap a n | .splice a n | .splicePrev a n | .spliceInit a n
  | .spliceTailInit a n => [a, n]

/-- No node is at one of the two addresses deleted nodes point to. -/
def Poisonless (l : List Addr) : Prop := 0x100 ∉ l ∧ 0x110 ∉ l

theorem ring_next {s : Heap} {a : Addr} {r : List Addr} (h : Ring s (a :: r)) : s.prev (s.next a) = a ∧ s.next a ∈ a :: r := by
  cases r with
  | nil => exact ⟨by rw [h.1]; exact h.2, by rw [h.1]; simp⟩
  | cons b r => exact ⟨by rw [h.1]; exact h.2.1, by rw [h.1]; simp⟩

theorem ring_prev {s : Heap} {a : Addr} {r : List Addr} (h : Ring s (a :: r)) : s.next (s.prev a) = a ∧ s.prev a ∈ a :: r := by
  refine ⟨links_next_prev h, ?_⟩
  by_cases hr : r = []
  · subst hr; rw [h.2]; simp
  · obtain ⟨w, hw⟩ := ring_last h hr
    rw [hw]; simp

theorem addD_ring {s : Heap} {a n : Addr} {r : List Addr} (h : Ring s (a :: r)) (hn : n ∉ a :: r) : addD s a n = add s a n := by
  have ⟨h1, h2⟩ := ring_next h
  have h3 : n ≠ a := by rintro rfl; simp at hn
  have h4 : n ≠ s.next a := by rintro rfl; exact hn h2
  simp [addD, insertD, debugAdd, add, h1, h3, h4]

theorem addPrevD_ring {s : Heap} {a n : Addr} {r : List Addr} (h : Ring s (a :: r)) (hn : n ∉ a :: r) : addPrevD s a n = addPrev s a n := by
  have ⟨h1, h2⟩ := ring_prev h
  have h3 : n ≠ a := by rintro rfl; simp at hn
  have h4 : n ≠ s.prev a := by rintro rfl; exact hn h2
  simp [addPrevD, insertD, debugAdd, addPrev, h1, h3, h4]

theorem delD_ring {s : Heap} {a : Addr} {r : List Addr} (h : Ring s (a :: r)) (hp : Poisonless (a :: r)) : delD s a = del s a := by
  have h1 : s.next a ≠ 0x100 := by intro e; exact hp.1 (e ▸ (ring_next h).2)
  have h2 : s.prev a ≠ 0x110 := by intro e; exact hp.2 (e ▸ (ring_prev h).2)
  simp [delD, debugDel, h1, h2]

theorem Poisonless.sub {l m : List Addr} (h : Poisonless l) (hs : ∀ z ∈ m, z ∈ l) : Poisonless m := ⟨fun e => h.1 (hs _ e), fun e => h.2 (hs _ e)⟩

theorem swapD_same {s : Heap} {x y : Addr} {u v : List Addr} (h : Ring s (x :: u ++ y :: v)) (hnd : (x :: u ++ y :: v).Nodup)
    (hl : u ++ v ≠ []) (hp : Poisonless (x :: u ++ y :: v)) : swapD s x y = swap s x y := by
  have hy : Ring s (y :: (v ++ x :: u)) := (ring_rotate s (x :: u) y v).1 h
  obtain ⟨d1, -⟩ := ring_del hy (by grind) (by simp)
  have d1' : Ring (del s y) (x :: (u ++ v)) := (ring_rotate _ v x u).1 d1
  obtain ⟨r1, -⟩ := ring_replace (n := y) d1' (by grind) hl (by grind)
  have hprev : ∀ w p, v ++ x :: u = w ++ [p] → s.prev y = p := by
    intro w p e
    obtain ⟨w', hw⟩ := ring_last hy (by simp)
    rw [e] at hw
    exact ((List.append_inj' hw rfl).2 |> List.cons.inj |>.1).symm
  unfold swap swapD
  simp only
  rw [delD_ring hy (hp.sub (by intro z hz; grind))]
  rcases List.eq_nil_or_concat u with rfl | ⟨u', e, rfl⟩
  · rw [hprev v x rfl, if_pos rfl]
    exact addD_ring r1 (by grind)
  · rw [List.concat_eq_append] at *
    rw [hprev (v ++ x :: u') e (by simp), if_neg (by grind)]
    have r1' := (ring_rotate _ (y :: u') e v).1 (by simpa using r1)
    exact addD_ring r1' (by grind)

theorem swapD_other {s : Heap} {x y : Addr} {u v : List Addr} (hx : Ring s (x :: u)) (hy : Ring s (y :: v))
    (hnd : (x :: u ++ y :: v).Nodup) (hu : u ≠ []) (hv : v ≠ []) (hp : Poisonless (y :: v)) : swapD s x y = swap s x y := by
  obtain ⟨d1, d2⟩ := ring_del hy (by grind) hv
  have hx1 : Ring (del s y) (x :: u) := ring_frame hx (fun z hz => d2 z (by grind))
  obtain ⟨-, r2⟩ := ring_replace (n := y) hx1 (by grind) hu (by grind)
  obtain ⟨w, hw⟩ := ring_last hy hv
  unfold swap swapD
  simp only
  rw [delD_ring hy hp]
  generalize s.prev y = p at *
  subst hw
  have hv1 : Ring (replace (del s y) x y) (w ++ [p]) := ring_frame d1 (fun z hz => r2 z (by grind))
  have hv2 := (ring_rotate _ w p []).1 hv1
  rw [if_neg (by grind)]
  exact addD_ring hv2 (by grind)

private theorem nodupc {s : Heap} {c : List Addr} {W : List (List Addr)} (h : World s (c :: W)) : (c ++ W.flatten).Nodup := by
  simpa using h.nodup

set_option maxHeartbeats 2000000 in
theorem runD_eq {s : Heap} {W W' : List (List Addr)} {op : Op} (hw : World s W) (hs : Step W op W') (hp : Poisonless W.flatten) : op.runD s = op.run s := by
  induction hs with
  | perm hq _ ih => exact ih (world_perm hq hw) (hp.sub fun z hz => (hq.flatten.mem_iff).2 hz)
  | @add W l a r n hn => exact addD_ring ((ring_rotate s l a r).1 (hw.ring _ (by simp))) (by simp at hn ⊢; grind)
  | @addPrev W l a r n hn => exact addPrevD_ring ((ring_rotate s l a r).1 (hw.ring _ (by simp))) (by simp at hn ⊢; grind)
  | @del W l x r hl => exact delD_ring ((ring_rotate s l x r).1 (hw.ring _ (by simp))) (hp.sub (by intro z hz; simp at hz ⊢; grind))
  | @moveSame W l x r l' a r' hl he =>
    have hnd := nodupc hw
    have hr := (ring_rotate s l x r).1 (hw.ring _ (by simp))
    obtain ⟨h1, -⟩ := ring_del hr (by nd) (by simp [hl])
    have hl' : Ring (Dlist.del s x) (l' ++ a :: r') := by
      rw [← he]
      obtain ⟨b, l', rfl⟩ := List.exists_cons_of_ne_nil hl
      simpa using (ring_rotate _ r b l').1 h1
    have hp' : (l ++ x :: r).Perm (x :: (l' ++ a :: r')) := by rw [← he]; exact List.perm_middle
    replace hnd : (x :: (l' ++ a :: r') ++ W.flatten).Nodup := ((hp'.append_right _).nodup_iff).1 hnd
    show moveD s a x = Dlist.move s a x
    rw [moveD, Dlist.move, delD_ring hr (hp.sub (by intro z hz; simp at hz ⊢; grind))]
    exact addD_ring ((ring_rotate _ l' a r').1 hl') (by nd)
  | @moveOther W l x r l' a r' hl =>
    have hnd := nodupc hw
    simp only [List.flatten_cons] at hnd
    have hr := (ring_rotate s l x r).1 (hw.ring _ (by simp))
    obtain ⟨h1, h2⟩ := ring_del hr (by nd) (by simp [hl])
    have ha : Ring (Dlist.del s x) (a :: (r' ++ l')) :=
      ring_frame ((ring_rotate s l' a r').1 (hw.ring _ (by simp))) (fun z hz => h2 z (by nd))
    show moveD s a x = Dlist.move s a x
    rw [moveD, Dlist.move, delD_ring hr (hp.sub (by intro z hz; simp at hz ⊢; grind))]
    exact addD_ring ha (by nd)
  | @movePrevSame W l x r l' a r' hl he =>
    have hnd := nodupc hw
    have hr := (ring_rotate s l x r).1 (hw.ring _ (by simp))
    obtain ⟨h1, -⟩ := ring_del hr (by nd) (by simp [hl])
    have hl' : Ring (Dlist.del s x) (l' ++ a :: r') := by
      rw [← he]
      obtain ⟨b, l', rfl⟩ := List.exists_cons_of_ne_nil hl
      simpa using (ring_rotate _ r b l').1 h1
    have hp' : (l ++ x :: r).Perm (x :: (l' ++ a :: r')) := by rw [← he]; exact List.perm_middle
    replace hnd : (x :: (l' ++ a :: r') ++ W.flatten).Nodup := ((hp'.append_right _).nodup_iff).1 hnd
    show movePrevD s a x = Dlist.movePrev s a x
    rw [movePrevD, Dlist.movePrev, delD_ring hr (hp.sub (by intro z hz; simp at hz ⊢; grind))]
    exact addPrevD_ring ((ring_rotate _ l' a r').1 hl') (by nd)
  | @movePrevOther W l x r l' a r' hl =>
    have hnd := nodupc hw
    simp only [List.flatten_cons] at hnd
    have hr := (ring_rotate s l x r).1 (hw.ring _ (by simp))
    obtain ⟨h1, h2⟩ := ring_del hr (by nd) (by simp [hl])
    have ha : Ring (Dlist.del s x) (a :: (r' ++ l')) :=
      ring_frame ((ring_rotate s l' a r').1 (hw.ring _ (by simp))) (fun z hz => h2 z (by nd))
    show movePrevD s a x = Dlist.movePrev s a x
    rw [movePrevD, Dlist.movePrev, delD_ring hr (hp.sub (by intro z hz; simp at hz ⊢; grind))]
    exact addPrevD_ring ha (by nd)
  | @swapSame W c x y hx hy hne hlen =>
    have hnd := nodupc hw
    obtain ⟨l, r, rfl⟩ := List.append_of_mem hx
    have hr := (ring_rotate s l x r).1 (hw.ring _ (by simp))
    have hy' : y ∈ r ++ l := by grind
    obtain ⟨u, v, huv⟩ := List.append_of_mem hy'
    rw [huv] at hr
    have hp' : (l ++ x :: r).Perm (x :: (u ++ y :: v)) := by
      rw [← huv]; exact List.perm_middle.trans ((List.perm_append_comm).cons _)
    have hnd' : (x :: (u ++ y :: v)).Nodup := (hp'.nodup_iff).1 (by nd)
    refine swapD_same hr hnd' ?_ (hp.sub fun z hz => ?_)
    · intro e
      have := hp'.length_eq
      have e' := congrArg List.length e
      simp only [List.length_append, List.length_cons, List.length_nil] at this e' hlen
      omega
    · exact List.mem_flatten.2 ⟨_, List.mem_cons_self, (hp'.mem_iff).2 hz⟩
  | @swapOther W c d x y hx hy hc hd =>
    obtain ⟨l, r, rfl⟩ := List.append_of_mem hx
    obtain ⟨l', r', rfl⟩ := List.append_of_mem hy
    have hnd := nodupc hw
    simp only [List.flatten_cons] at hnd
    have hrx := (ring_rotate s l x r).1 (hw.ring _ (by simp))
    have hry := (ring_rotate s l' y r').1 (hw.ring _ (by simp))
    refine swapD_other hrx hry (by nd) ?_ ?_ (hp.sub (by intro z hz; simp at hz ⊢; grind))
    · intro e; have := congrArg List.length e; simp only [List.length_append, List.length_cons, List.length_nil] at this hc; omega
    · intro e; have := congrArg List.length e; simp only [List.length_append, List.length_cons, List.length_nil] at this hd; omega
  | _ => rfl

theorem before_mem (l : List Addr) (a : Addr) (r ys : List Addr) (z : Addr) : z ∈ before l a r ys ↔ z ∈ l ∨ z = a ∨ z ∈ r ∨ z ∈ ys := by
  unfold before
  split
  · simp_all
  · simp; grind

theorem exchange_from {x y z : Addr} {c : List Addr} (h : z ∈ c.map (exchange x y)) : z ∈ c ∨ z = x ∨ z = y := by
  obtain ⟨w, h1, h2⟩ := List.mem_map.1 h
  unfold exchange at h2
  grind

theorem step_nodes {W W' : List (List Addr)} {op : Op} (hs : Step W op W') : ∀ z ∈ W'.flatten, z ∈ W.flatten ∨ z ∈ op.nodes := by
  induction hs with
  | perm hq _ ih =>
    intro z hz
    exact (ih z hz).imp_left fun h => (hq.flatten.mem_iff).2 h
  | swapSame =>
    intro z hz
    simp only [List.flatten_cons, List.mem_append, Op.nodes] at hz ⊢
    rcases hz with hz | hz
    · have := exchange_from hz; grind
    · grind
  | swapOther =>
    intro z hz
    simp only [List.flatten_cons, List.mem_append, Op.nodes] at hz ⊢
    rcases hz with hz | hz | hz
    · have := exchange_from hz; grind
    · have := exchange_from hz; grind
    · grind
  | @moveSame W l x r l' a r' hl he | @movePrevSame W l x r l' a r' hl he =>
    intro z hz
    have hm : ∀ w, w ∈ l ∨ w ∈ r ↔ w ∈ l' ∨ w = a ∨ w ∈ r' := by
      intro w; have := congrArg (w ∈ ·) he; simpa using this
    simp only [List.flatten_cons, List.mem_append, List.mem_cons, before_mem, Op.nodes] at hz ⊢
    have := hm z
    grind
  | _ =>
    intro z hz
    simp only [List.flatten_cons, List.mem_append, List.mem_cons, before_mem, Op.nodes] at hz ⊢
    grind

/-- C91, circular lists. Every history of legal operations does with the checks exactly what it does without them, in every memory whose nodes are not at the addresses
0x100 and 0x110: nothing legal is refused, so all of C17 holds for the default configuration. -/
theorem checked_histories {s : Heap} {W W' : List (List Addr)} {ops : List Op} (hw : World s W) (hs : Steps W ops W') (hp : Poisonless W.flatten)
    (ho : ∀ op ∈ ops, Poisonless op.nodes) : ops.foldl Op.runD s = ops.foldl Op.run s ∧ World (ops.foldl Op.runD s) W' := by
  induction hs generalizing s with
  | nil => exact ⟨rfl, hw⟩
  | @cons W op W' ops W'' h _ ih =>
    have h1 := ho op (by simp)
    have h2 : Poisonless W'.flatten := by
      refine ⟨fun e => ?_, fun e => ?_⟩
      · rcases step_nodes h _ e with e | e
        · exact hp.1 e
        · exact h1.1 e
      · rcases step_nodes h _ e with e | e
        · exact hp.2 e
        · exact h1.2 e
    simp only [List.foldl_cons]
    rw [runD_eq hw h hp]
    exact ih (step_sound hw h) h2 (fun op hop => ho op (by simp [hop]))

/-- C91, circular lists. In any memory whatever, a node that was deleted is not deleted again, a node is not added next to itself, and nothing is added between two nodes
that are not linked to each other: memory is left as it is. -/
theorem misuse_refused (s : Heap) (a x : Addr) :
    delD (del s x) x = del s x ∧ delD (delD s x) x = delD s x ∧ addD s a a = s ∧ addD s a (s.next a) = s ∧ addPrevD s a a = s ∧ addPrevD s a (s.prev a) = s ∧
    (s.prev (s.next a) ≠ a → addD s a x = s) ∧ (s.next (s.prev a) ≠ a → addPrevD s a x = s) := by
  have h1 : debugDel (del s x) x = false := by simp [debugDel, del, Heap.setNext, Heap.setPrev, upd]
  have hd : delD (del s x) x = del s x := by rw [delD, h1]; rfl
  refine ⟨hd, ?_, ?_, ?_, ?_, ?_, ?_, ?_⟩
  · by_cases h : debugDel s x
    · have : delD s x = del s x := by simp [delD, h]
      rw [this, hd]
    · have : delD s x = s := by simp [delD, h]
      rw [this, this]
  · simp [addD, insertD, debugAdd]
  · simp [addD, insertD, debugAdd]
  · simp [addPrevD, insertD, debugAdd]
  · simp [addPrevD, insertD, debugAdd]
  · intro h; simp [addD, insertD, debugAdd, h]
  · intro h; simp [addPrevD, insertD, debugAdd, h]

/-- A history the theorem speaks about: three nodes under a head, one moved, one deleted. -/
example : Steps [] [.headInit 1, .add 1 2, .add 1 3, .move 2 3, .del 2] [[1, 3]] ∧ ∀ op ∈ [Op.headInit 1, .add 1 2, .add 1 3, .move 2 3, .del 2], Poisonless op.nodes := by
  refine ⟨.cons (.headInit (by simp)) (.cons (.add (l := []) (by simp)) (.cons (.add (l := []) (by simp)) (.cons (.moveSame (l := [1]) (l' := [1]) (by simp) rfl)
    (.cons (.del (l := [1]) (by simp)) .nil)))), ?_⟩
  simp [Poisonless, Op.nodes]

/-- C91, lists. Nothing else is refused: in any memory, a call that meets neither mark of a deleted node, or whose neighbours agree and are not the new node, does what it does
without the checks; one of the two marks is enough to refuse a deletion. -/
theorem only_misuse_refused (s : Heap) (a x : Addr) :
    (s.next x = 0x100 ∨ s.prev x = 0x110 → delD s x = s) ∧ (s.next x ≠ 0x100 → s.prev x ≠ 0x110 → delD s x = del s x) ∧
    (s.prev (s.next a) = a → x ≠ a → x ≠ s.next a → addD s a x = add s a x) ∧ (s.next (s.prev a) = a → x ≠ a → x ≠ s.prev a → addPrevD s a x = addPrev s a x) := by
  refine ⟨fun h => ?_, fun h1 h2 => by simp [delD, debugDel, h1, h2], fun h1 h2 h3 => by simp [addD, add, insertD, debugAdd, h1, h2, h3],
    fun h1 h2 h3 => by simp [addPrevD, addPrev, insertD, debugAdd, h1, h2, h3]⟩
  rcases h with h | h <;> simp [delD, debugDel, h]

end Bfdev.Dlist

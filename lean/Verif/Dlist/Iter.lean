import Verif.Dlist.Props
/-!
C92, circular lists: every iteration macro of `include/bfdev/list.h`, in both directions, starting at the head, at a cursor or after
a cursor, with and without protection against removal. A cursor of an `_entry` variant is the address of the containing structure; it
is represented here by the address of its link (`container_of` subtracts a constant the next use adds again), so an `_entry` macro and
its plain form are the same loop.
-/
namespace Bfdev.Dlist

/-- Where an iteration starts: `for_each`, `for_each_from` or `for_each_continue`. -/
inductive Start where
  | all
  | from (x : Addr)
  | after (x : Addr)

/-- The link a loop follows: `next`, or `prev` in the `_reverse` macros. -/
def dir (back : Bool) (s : Heap) (a : Addr) : Addr := if back then s.prev a else s.next a

/-- `bfdev_list_for_each`, `_reverse`, `_from`, `_reverse_from`, `_continue`, `_reverse_continue`, list.h:440-485, and their `_entry`
forms, list.h:557-613, collecting the cursors. -/
def iter (back : Bool) (s : Heap) (head : Addr) (fuel : Nat) : Start → Option (List Addr)
  | .all => walkFrom (dir back s) head fuel (dir back s head)
  | .from x => walkFrom (dir back s) head fuel x
  | .after x => walkFrom (dir back s) head fuel (dir back s x)

/-- The loop of the `_safe` macros, list.h:493-549: the body may change memory; the step is `pos = tmp, tmp = tmp->next`. -/
def safeLoop (back : Bool) (head : Addr) (body : Heap → Addr → Heap) : Nat → Heap → Addr → Addr → Option (List Addr × Heap)
  | 0, _, _, _ => none
  | fuel + 1, s, pos, tmp =>
    if pos = head then some ([], s)
    else
      let s := body s pos
      (safeLoop back head body fuel s tmp (dir back s tmp)).map fun r => (pos :: r.1, r.2)

/-- `bfdev_list_for_each_safe`, `_reverse_safe`, `_from_safe`, `_reverse_from_safe`, `_continue_safe`, `_reverse_continue_safe`,
list.h:493-549, and their `_entry` forms, list.h:622-689. -/
def iterSafe (back : Bool) (head : Addr) (body : Heap → Addr → Heap) (fuel : Nat) (s : Heap) : Start → Option (List Addr × Heap)
  | .all => let pos := dir back s head; safeLoop back head body fuel s pos (dir back s pos)
  | .from x => safeLoop back head body fuel s x (dir back s x)
  | .after x => let pos := dir back s x; safeLoop back head body fuel s pos (dir back s pos)

/-! ## Specification -/

/-- The nodes in the order an iteration meets them. -/
def order (back : Bool) (xs : List Addr) : List Addr := if back then xs.reverse else xs

/-- The nodes an iteration from the given start has passed before its first cursor, and those it still meets. -/
inductive Splits : List Addr → Start → List Addr → List Addr → Prop
  | all {xs} : Splits xs .all [] xs
  | from {p x q} : Splits (p ++ x :: q) (.from x) p (x :: q)
  | after {p x q} : Splits (p ++ x :: q) (.after x) (p ++ [x]) q

/-! ## Proofs -/

/-- Memory seen backwards. -/
def flip (s : Heap) : Heap := ⟨s.prev, s.next⟩

theorem links_flip {s : Heap} : ∀ {l : List Addr} {a b : Addr}, Links s a l b → Links (flip s) b l.reverse a
  | [], a, b, h => ⟨h.2, h.1⟩
  | x :: l, a, b, h => by
    rw [List.reverse_cons]
    exact (links_append _ _ _ _ _ _).2 ⟨links_flip h.2.2, h.2.1, h.1⟩

theorem ring_flip {s : Heap} {h : Addr} {l : List Addr} (r : Ring s (h :: l)) : Ring (flip s) (h :: l.reverse) := links_flip r

/-- The ring in the order of the iteration. -/
def View (back : Bool) (s : Heap) : Heap := if back then flip s else s

theorem view_next (back : Bool) (s : Heap) (a : Addr) : (View back s).next a = dir back s a := by
  cases back <;> rfl

theorem ring_view {back : Bool} {s : Heap} {h : Addr} {l : List Addr} (r : Ring s (h :: l)) : Ring (View back s) (h :: order back l) := by
  cases back
  · exact r
  · exact ring_flip r

theorem order_mem (back : Bool) (l : List Addr) (z : Addr) : z ∈ order back l ↔ z ∈ l := by cases back <;> simp [order]
theorem order_length (back : Bool) (l : List Addr) : (order back l).length = l.length := by cases back <;> simp [order]
theorem order_order (back : Bool) (l : List Addr) : order back (order back l) = l := by cases back <;> simp [order]
theorem order_filter (back : Bool) (p : Addr → Bool) (l : List Addr) : order back (l.filter p) = (order back l).filter p := by
  cases back <;> simp [order, List.filter_reverse]
/-- The link of the last node of `a :: p` leads to the first of `q`, or to the end. -/
theorem links_step {s : Heap} : ∀ {p q : List Addr} {a b x : Addr}, Links s a (p ++ x :: q) b → s.next x = q.headD b
  | [], [], _, _, _, h => h.2.2.1
  | [], _ :: _, _, _, _, h => h.2.2.1
  | _ :: _, _, _, _, _, h => links_step h.2.2

theorem ring_step {s : Heap} {h x : Addr} {p q : List Addr} (r : Ring s (h :: (p ++ x :: q))) : s.next x = q.headD h := links_step r

theorem ring_first {s : Heap} {h : Addr} {q : List Addr} (r : Ring s (h :: q)) : s.next h = q.headD h := by
  cases q with
  | nil => exact r.1
  | cons y q => exact r.1

theorem dir_eq (back : Bool) (s : Heap) : dir back s = (View back s).next := by
  funext a; exact (view_next back s a).symm

theorem walk_view {v : Heap} {h : Addr} : ∀ {q p : List Addr} {fuel : Nat}, Ring v (h :: (p ++ q)) → h ∉ p ++ q → q.length < fuel →
    walkFrom v.next h fuel (q.headD h) = some q
  | [], _, fuel + 1, _, _, _ => by simp [walkFrom]
  | x :: q, p, fuel + 1, r, hn, hf => by
    have hx : x ≠ h := fun e => hn (by simp [e])
    have e := ring_step r
    have ih := walk_view (q := q) (p := p ++ [x]) (fuel := fuel) (by simpa using r) (by simpa using hn) (by simpa using hf)
    simp only [walkFrom, List.headD_cons, if_neg hx, e, ih, Option.map_some]

/-- C92. On a well formed list, every plain iteration macro terminates and meets exactly the nodes from its start to the end of the list,
each once, in list order, or in reverse order for the `_reverse` macros. -/
theorem iteration {back : Bool} {s : Heap} {h : Addr} {xs p q : List Addr} {start : Start} (hr : Ring s (h :: xs)) (hnd : (h :: xs).Nodup)
    (hs : Splits (order back xs) start p q) (fuel : Nat) (hf : xs.length < fuel) : iter back s h fuel start = some q := by
  have hv := ring_view (back := back) hr
  have hn : h ∉ order back xs := fun e => (List.nodup_cons.1 hnd).1 ((order_mem _ _ _).1 e)
  have hl := order_length back xs
  generalize order back xs = ys at hs hv hn hl
  cases hs with
  | all =>
    simp only [iter, dir_eq, ring_first hv]
    exact walk_view (p := []) hv hn (by omega)
  | @«from» p x q =>
    simp only [iter, dir_eq]
    have hq : (x :: q).length ≤ (p ++ x :: q).length := by simp
    exact walk_view (q := x :: q) hv hn (by omega)
  | @after p x q =>
    simp only [iter, dir_eq, ring_step hv]
    have hq : q.length ≤ (p ++ x :: q).length := by simp; omega
    exact walk_view (p := p ++ [x]) (by simpa using hv) (by simpa using hn) (by omega)

/-- The loop of the `_safe` macros under any invariant. `Inv s p q`: memory `s` holds the list `p ++ q` (in iteration order), of which
the loop has still to meet `q`. -/
theorem safeLoop_inv {back : Bool} {h : Addr} {body : Heap → Addr → Heap} {keep : Addr → Bool} (Inv : Heap → List Addr → List Addr → Prop)
    (hring : ∀ s p q, Inv s p q → Ring s (h :: order back (p ++ q)) ∧ h ∉ p ++ q)
    (hbody : ∀ s p x q, Inv s p (x :: q) → Inv (body s x) (p ++ (if keep x then [x] else [])) q) :
    ∀ (q p : List Addr) (s : Heap) (fuel : Nat), Inv s p q → q.length < fuel →
      ∃ s', safeLoop back h body fuel s (q.headD h) (dir back s (q.headD h)) = some (q, s') ∧ Inv s' (p ++ q.filter keep) []
  | [], p, s, fuel + 1, hi, _ => ⟨s, by simp [safeLoop], by simpa using hi⟩
  | x :: q, p, s, fuel + 1, hi, hf => by
    obtain ⟨hr, hn⟩ := hring _ _ _ hi
    have hx : x ≠ h := fun e => hn (by simp [e])
    have hv := ring_view (back := back) hr
    rw [order_order] at hv
    have e : dir back s x = q.headD h := by rw [dir_eq]; exact ring_step hv
    obtain ⟨s', h1, h2⟩ := safeLoop_inv Inv hring hbody q (p ++ (if keep x then [x] else [])) (body s x) fuel (hbody _ _ _ _ hi) (by simpa using hf)
    refine ⟨s', ?_, ?_⟩
    · simp only [safeLoop, List.headD_cons, if_neg hx, e, h1, Option.map_some]
    · cases hk : keep x <;> simp [hk] at h2 ⊢ <;> exact h2

theorem iterSafe_inv {back : Bool} {h : Addr} {body : Heap → Addr → Heap} {keep : Addr → Bool} (Inv : Heap → List Addr → List Addr → Prop)
    (hring : ∀ s p q, Inv s p q → Ring s (h :: order back (p ++ q)) ∧ h ∉ p ++ q)
    (hbody : ∀ s p x q, Inv s p (x :: q) → Inv (body s x) (p ++ (if keep x then [x] else [])) q)
    {s : Heap} {ys p q : List Addr} {start : Start} (hs : Splits ys start p q) (hi : Inv s p q) (fuel : Nat) (hf : ys.length < fuel) :
    ∃ s', iterSafe back h body fuel s start = some (q, s') ∧ Inv s' (p ++ q.filter keep) [] := by
  have hv := ring_view (back := back) (hring _ _ _ hi).1
  rw [order_order] at hv
  cases hs with
  | all =>
    simp only [iterSafe]
    have e : dir back s h = ys.headD h := by rw [dir_eq]; exact ring_first hv
    rw [e]
    exact safeLoop_inv Inv hring hbody ys [] s fuel hi hf
  | @«from» p x q =>
    simp only [iterSafe]
    exact safeLoop_inv Inv hring hbody (x :: q) p s fuel hi (by simp at hf ⊢; omega)
  | @after p x q =>
    simp only [iterSafe]
    have e : dir back s x = q.headD h := by rw [dir_eq]; exact ring_step (p := p) (by simpa using hv)
    rw [e]
    exact safeLoop_inv Inv hring hbody q (p ++ [x]) s fuel hi (by simp at hf; omega)

/-- A body that leaves some nodes alone and applies `f` to the others. -/
def only (keep : Addr → Bool) (f : Heap → Addr → Heap) (s : Heap) (x : Addr) : Heap := if keep x then s else f s x

/-- The splitting of a list seen in list order: what stands before and after `x`. -/
theorem order_middle (back : Bool) (A : List Addr) (x : Addr) (B : List Addr) :
    ∃ l r, order back (A ++ x :: B) = l ++ x :: r ∧ order back (A ++ B) = l ++ r := by
  cases back
  · exact ⟨A, B, rfl, rfl⟩
  · exact ⟨B.reverse, A.reverse, by simp [order], by simp [order]⟩

theorem splits_append {ys p q : List Addr} {start : Start} (h : Splits ys start p q) : p ++ q = ys := by cases h <;> simp

/-- C92. The `_safe` macros are safe against deletion of the cursor: whatever nodes the body deletes (with `bfdev_list_del` or
`bfdev_list_del_init`), the loop meets exactly the nodes from its start to the end, each once, in order, and afterwards the list holds the
nodes it passed before its start followed by those that were kept; every other list in memory is untouched. -/
theorem deleting_iteration {back : Bool} {s : Heap} {h : Addr} {xs p q : List Addr} {W : List (List Addr)} {start : Start} (keep : Addr → Bool)
    (hw : World s ((h :: xs) :: W)) (hs : Splits (order back xs) start p q) (fuel : Nat) (hf : xs.length < fuel) :
    (∃ s', iterSafe back h (only keep del) fuel s start = some (q, s') ∧ World s' ((h :: order back (p ++ q.filter keep)) :: W)) ∧
    (∃ s', iterSafe back h (only keep delInit) fuel s start = some (q, s') ∧ World s' ((h :: order back (p ++ q.filter keep)) :: W)) := by
  have hring : ∀ s p q, World s ((h :: order back (p ++ q)) :: W) → Ring s (h :: order back (p ++ q)) ∧ h ∉ p ++ q := by
    intro s p q hi
    refine ⟨hi.ring _ (by simp), fun e => ?_⟩
    have := hi.nodup
    rw [← order_mem back] at e
    simp [e] at this
  have hi0 : World s ((h :: order back (p ++ q)) :: W) := by rw [splits_append hs, order_order]; exact hw
  constructor
  · obtain ⟨s', h1, h2⟩ := iterSafe_inv (keep := keep) (body := only keep del) (fun s p q => World s ((h :: order back (p ++ q)) :: W)) hring
      (by
        intro s A x B hi
        cases hk : keep x
        · obtain ⟨l, r, e1, e2⟩ := order_middle back A x B
          simp only [only, hk, Bool.false_eq_true, if_false, List.append_nil]
          rw [e1] at hi; rw [e2]
          exact step_sound (op := .del x) hi (Step.del (l := h :: l) (by simp))
        · simpa [only, hk] using hi) hs hi0 fuel (by rw [order_length]; exact hf)
    exact ⟨s', h1, by simpa using h2⟩
  · obtain ⟨s', h1, h2⟩ := iterSafe_inv (keep := keep) (body := only keep delInit) (fun s p q => World s ((h :: order back (p ++ q)) :: W)) hring
      (by
        intro s A x B hi
        cases hk : keep x
        · obtain ⟨l, r, e1, e2⟩ := order_middle back A x B
          simp only [only, hk, Bool.false_eq_true, if_false, List.append_nil]
          rw [e1] at hi; rw [e2]
          exact world_tail (step_sound (op := .delInit x) hi (Step.delInit (l := h :: l) (by simp)))
        · simpa [only, hk] using hi) hs hi0 fuel (by rw [order_length]; exact hf)
    exact ⟨s', h1, by simpa using h2⟩

/-- C92. The `_safe` macros are safe against moving the cursor to another list: the loop meets the same nodes, the moved ones end up
in front of the other list, last moved first (`bfdev_list_move`), or behind it, in the order of the loop (`bfdev_list_move_prev`). -/
theorem moving_iteration {back : Bool} {s : Heap} {h o : Addr} {xs m p q : List Addr} {W : List (List Addr)} {start : Start} (keep : Addr → Bool)
    (hw : World s ((h :: xs) :: (o :: m) :: W)) (hs : Splits (order back xs) start p q) (fuel : Nat) (hf : xs.length < fuel) :
    (∃ s', iterSafe back h (only keep fun s x => move s o x) fuel s start = some (q, s') ∧
      World s' ((h :: order back (p ++ q.filter keep)) :: (o :: ((q.filter (!keep ·)).reverse ++ m)) :: W)) ∧
    (∃ s', iterSafe back h (only keep fun s x => movePrev s o x) fuel s start = some (q, s') ∧
      World s' ((h :: order back (p ++ q.filter keep)) :: (o :: (m ++ q.filter (!keep ·))) :: W)) := by
  have hring : ∀ (f : List Addr → List Addr) (s : Heap) (A B : List Addr),
      (∃ C, q = C ++ B ∧ World s ((h :: order back (A ++ B)) :: (o :: f (C.filter (!keep ·))) :: W)) → Ring s (h :: order back (A ++ B)) ∧ h ∉ A ++ B := by
    rintro f s A B ⟨C, _, hi⟩
    refine ⟨hi.ring _ (by simp), fun e => ?_⟩
    have := hi.nodup
    rw [← order_mem back] at e
    simp [e] at this
  have hi0 : World s ((h :: order back (p ++ q)) :: (o :: m) :: W) := by rw [splits_append hs, order_order]; exact hw
  constructor
  · obtain ⟨s', h1, C, hC, h2⟩ := iterSafe_inv (keep := keep) (body := only keep fun s x => move s o x)
      (fun s A B => ∃ C, q = C ++ B ∧ World s ((h :: order back (A ++ B)) :: (o :: ((C.filter (!keep ·)).reverse ++ m)) :: W))
      (hring fun l => l.reverse ++ m)
      (by
        rintro s A x B ⟨C, hC, hi⟩
        refine ⟨C ++ [x], by simp [hC], ?_⟩
        cases hk : keep x
        · obtain ⟨l, r, e1, e2⟩ := order_middle back A x B
          simp only [only, hk, Bool.false_eq_true, if_false, List.append_nil]
          rw [e1] at hi; rw [e2]
          have := step_sound (op := .move o x) hi (Step.moveOther (l := h :: l) (l' := []) (by simp))
          simpa [hk, Op.run] using this
        · simpa [only, hk] using hi) hs ⟨[], by simp, by simpa using hi0⟩ fuel (by rw [order_length]; exact hf)
    simp only [List.append_nil] at hC
    subst hC
    exact ⟨s', h1, by simpa using h2⟩
  · obtain ⟨s', h1, C, hC, h2⟩ := iterSafe_inv (keep := keep) (body := only keep fun s x => movePrev s o x)
      (fun s A B => ∃ C, q = C ++ B ∧ World s ((h :: order back (A ++ B)) :: (o :: (m ++ C.filter (!keep ·))) :: W))
      (hring fun l => m ++ l)
      (by
        rintro s A x B ⟨C, hC, hi⟩
        refine ⟨C ++ [x], by simp [hC], ?_⟩
        cases hk : keep x
        · obtain ⟨l, r, e1, e2⟩ := order_middle back A x B
          simp only [only, hk, Bool.false_eq_true, if_false, List.append_nil]
          rw [e1] at hi; rw [e2]
          have := step_sound (op := .movePrev o x) hi (Step.movePrevOther (l := h :: l) (l' := []) (by simp))
          simpa [hk, Op.run, before] using this
        · simpa [only, hk] using hi) hs ⟨[], by simp, by simpa using hi0⟩ fuel (by rw [order_length]; exact hf)
    simp only [List.append_nil] at hC
    subst hC
    exact ⟨s', h1, by simpa using h2⟩

/-- Three nodes under head 9 and an empty list under head 8. -/
def exHeap : Heap := addPrev (addPrev (addPrev (headInit (headInit ⟨fun _ => 0, fun _ => 0⟩ 9) 8) 9 1) 9 2) 9 3

/-- The hypotheses hold there, and the loops do what the theorems say. -/
example : World exHeap [[9, 1, 2, 3], [8]] ∧ Splits (order true [1, 2, 3]) (.from 2) [3] [2, 1] ∧
    iter true exHeap 9 10 (.from 2) = some [2, 1] ∧ iter false exHeap 9 10 (.after 1) = some [2, 3] ∧
    (iterSafe false 9 (only (· == 2) del) 10 exHeap .all).map (fun r => (r.1, forEach r.2 9 10)) = some ([1, 2, 3], some [2]) ∧
    (iterSafe true 9 (only (· == 2) fun s x => move s 8 x) 10 exHeap .all).map (fun r => (r.1, forEach r.2 9 10, forEach r.2 8 10)) =
      some ([3, 2, 1], some [2], some [1, 3]) := by
  refine ⟨⟨by simp [exHeap, Ring, Links, addPrev, insert, headInit, Heap.setNext, Heap.setPrev, upd], by decide⟩, Splits.from (p := [3]) (x := 2) (q := [1]), by decide, by decide, by decide, by decide⟩

/-- The plain macro is not safe: deleting the cursor sends it to the poison address. -/
example : (del exHeap 1).next 1 = 0x100 := by decide

end Bfdev.Dlist

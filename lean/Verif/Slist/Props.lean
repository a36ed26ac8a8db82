import Verif.Slist.Spec
import Verif.Common.Nodup
/-!
C19: singly linked lists.
-/
set_option linter.unusedSimpArgs false
namespace Bfdev.Slist

theorem upd_ne {s : Heap} {a v z : Addr} (h : z ≠ a) : upd s a v z = s z := by simp [upd, h]
theorem upd_eq (s : Heap) (a v : Addr) : upd s a v a = v := by simp [upd]

theorem chain_frame {s s' : Heap} {a : Addr} {l : List Addr} (h : Chain s a l) (hn : ∀ z ∈ a :: l, s' z = s z) : Chain s' a l := by
  induction l generalizing a with
  | nil => exact (hn a (by simp)).trans h
  | cons x l ih => exact ⟨(hn a (by simp)).trans h.1, h.2.1, ih h.2.2 (fun z hz => hn z (by simp only [List.mem_cons] at hz ⊢; exact Or.inr hz))⟩

theorem isList_frame {s s' : Heap} {c : List Addr} (h : IsList s c) (hs : ∀ z ∈ c, s' z = s z) : IsList s' c := by
  cases c with
  | nil => exact h
  | cons a l => exact ⟨h.1, chain_frame h.2 hs⟩

theorem chain_tail {s : Heap} {a : Addr} {l : List Addr} {x : Addr} {r : List Addr} (h : Chain s a (l ++ x :: r)) : x ≠ 0 ∧ Chain s x r := by
  induction l generalizing a with
  | nil => exact ⟨h.2.1, h.2.2⟩
  | cons y l ih => exact ih h.2.2

theorem isList_tail {s : Heap} {l : List Addr} {x : Addr} {r : List Addr} (h : IsList s (l ++ x :: r)) : x ≠ 0 ∧ Chain s x r := by
  cases l with
  | nil => exact h
  | cons a l => exact chain_tail h.2

/-- Replacing everything after `x`. -/
theorem isList_splice {s s' : Heap} {x : Addr} {r r' : List Addr} : ∀ {l : List Addr}, IsList s (l ++ x :: r) → (∀ z ∈ l, s' z = s z) →
    Chain s' x r' → IsList s' (l ++ x :: r') := by
  have key : ∀ {l : List Addr} {a : Addr}, Chain s a (l ++ x :: r) → (∀ z ∈ a :: l, s' z = s z) → Chain s' x r' → Chain s' a (l ++ x :: r') := by
    intro l
    induction l with
    | nil => intro a h h1 h2; exact ⟨(h1 a (by simp)).trans h.1, h.2.1, h2⟩
    | cons y l ih => intro a h h1 h2; exact ⟨(h1 a (by simp)).trans h.1, h.2.1, ih h.2.2 (fun z hz => h1 z (by simp only [List.mem_cons] at hz ⊢; exact Or.inr hz)) h2⟩
  intro l h h1 h2
  cases l with
  | nil => exact ⟨h.1, h2⟩
  | cons a l => exact ⟨h.1, key h.2 h1 h2⟩

theorem findPrev_ok {s : Heap} {p x : Addr} {r : List Addr} : ∀ {l : List Addr} {fuel : Nat}, IsList s (l ++ p :: x :: r) → (l ++ p :: x :: r).Nodup →
    l.length < fuel → ∀ h, (l ++ [p]).head? = some h → findPrev s x fuel h = some p := by
  intro l
  induction l with
  | nil =>
    intro fuel hc hnd hf h hh
    obtain ⟨f, rfl⟩ : ∃ f, fuel = f + 1 := ⟨fuel - 1, by simp at hf; omega⟩
    simp only [List.nil_append, List.head?_cons, Option.some.injEq] at hh
    subst hh
    simp [findPrev, hc.1, hc.2.1]
  | cons a l ih =>
    intro fuel hc hnd hf h hh
    obtain ⟨f, rfl⟩ : ∃ f, fuel = f + 1 := ⟨fuel - 1, by simp at hf; omega⟩
    simp only [List.cons_append, List.head?_cons, Option.some.injEq] at hh
    subst hh
    obtain ⟨h0, hc⟩ := hc
    rw [findPrev, if_neg h0]
    cases l with
    | nil =>
      obtain ⟨e1, e2, e3⟩ := hc
      have hne : s a ≠ x := by rw [e1]; nd
      rw [if_pos hne, e1]
      exact ih ⟨e2, e3⟩ (by nd) (by simp at hf ⊢; omega) _ rfl
    | cons b l =>
      obtain ⟨e1, e2, e3⟩ := hc
      have hne : s a ≠ x := by rw [e1]; nd
      rw [if_pos hne, e1]
      exact ih ⟨e2, e3⟩ (by nd) (by simp at hf ⊢; omega) _ rfl

theorem world_one {s s' : Heap} {c c' : List Addr} {W : List (List Addr)} (h : World s (c :: W)) (hr : IsList s' c')
    (hs : ∀ z, z ∈ W.flatten → s' z = s z) (hnd : (c' ++ W.flatten).Nodup) : World s' (c' :: W) := by
  refine ⟨fun d hd => ?_, by simpa using hnd⟩
  rcases List.mem_cons.1 hd with rfl | hd
  · exact hr
  · exact isList_frame (h.list d (by simp [hd])) (fun z hz => hs z (List.mem_flatten.2 ⟨d, hd, hz⟩))

theorem world_cons {s s' : Heap} {c : List Addr} {W : List (List Addr)} (h : World s W) (hr : IsList s' c)
    (hs : ∀ z, z ∈ W.flatten → s' z = s z) (hnd : (c ++ W.flatten).Nodup) : World s' (c :: W) := by
  refine ⟨fun d hd => ?_, by simpa using hnd⟩
  rcases List.mem_cons.1 hd with rfl | hd
  · exact hr
  · exact isList_frame (h.list d hd) (fun z hz => hs z (List.mem_flatten.2 ⟨d, hd, hz⟩))

/-- A node after the head has a predecessor. -/
theorem split_prev (h : Addr) (l : List Addr) : ∃ l' p, h :: l = l' ++ [p] := by
  rcases List.eq_nil_or_concat l with rfl | ⟨l, p, rfl⟩
  · exact ⟨[], h, rfl⟩
  · exact ⟨h :: l, p, by simp⟩

/-- C19: every operation succeeds (its loop ends without touching NULL), acts on the sequence as described, and leaves other lists
alone. The loops follow at most as many links as the list is long. -/
theorem step_sound {fuel : Nat} {s : Heap} {W W' : List (List Addr)} {op : Op} (hf : W.flatten.length ≤ fuel) (hw : World s W) (hs : Step W op W') :
    ∃ s', op.run fuel s = some s' ∧ World s' W' := by
  induction hs with
  | perm hp _ ih =>
    exact ih (by rw [← hp.flatten.length_eq]; exact hf) ⟨fun c hc => hw.list c (hp.mem_iff.2 hc), (hp.flatten.nodup_iff).1 hw.nodup⟩
  | @headInit W h h0 hn =>
    have hnd := List.nodup_cons.2 ⟨hn, hw.nodup⟩
    exact ⟨_, rfl, world_cons hw ⟨h0, upd_eq _ _ _⟩ (fun z hz => upd_ne (by nd)) (by nd)⟩
  | @add W l a r n h0 hn =>
    have hnd : (n :: ((l ++ a :: r) ++ W.flatten)).Nodup := List.nodup_cons.2 ⟨by simpa using hn, by simpa using hw.nodup⟩
    have hc := hw.list (l ++ a :: r) (by simp)
    obtain ⟨ha0, hr⟩ := isList_tail hc
    have han : n ≠ a := by nd
    have e : ∀ z, z ≠ a → z ≠ n → Slist.add s a n z = s z := fun z h1 h2 => by simp [Slist.add, upd, h1, h2]
    refine ⟨_, rfl, world_one hw (isList_splice hc (fun z hz => e z (by nd) (by nd)) ?_) (fun z hz => e z (by nd) (by nd)) (by nd)⟩
    have e1 : Slist.add s a n a = n := by simp [Slist.add, upd]
    have e2 : Slist.add s a n n = s a := by simp [Slist.add, upd, han]
    refine ⟨e1, h0, ?_⟩
    cases r with
    | nil => exact e2.trans hr
    | cons y r => exact ⟨e2.trans hr.1, hr.2.1, chain_frame hr.2.2 (fun z hz => e z (by nd) (by nd))⟩
  | @del W h l x r =>
    have hnd : ((h :: l ++ x :: r) ++ W.flatten).Nodup := by simpa using hw.nodup
    have hc := hw.list _ (List.mem_cons_self ..)
    obtain ⟨l', p, e⟩ := split_prev h l
    have hhd : (l' ++ [p]).head? = some h := by rw [← e]; rfl
    have hlen : l'.length < fuel := by
      have := congrArg List.length e
      simp only [List.flatten_cons, List.length_append, List.length_cons, List.length_nil] at hf this
      omega
    rw [e] at hc hnd ⊢
    replace hc : IsList s (l' ++ p :: x :: r) := by simpa using hc
    have hfp := findPrev_ok hc (by ndn hnd) hlen h hhd
    obtain ⟨hp0, -, hx0, hr⟩ := isList_tail hc
    have hpx : p ≠ x := by nd
    have e : ∀ z, z ≠ p → z ≠ x → upd (upd s p (s x)) x 0x140 z = s z := fun z h1 h2 => by simp [upd, h1, h2]
    have hW := world_one (s' := upd (upd s p (s x)) x 0x140) (c' := l' ++ [p] ++ r) (W := W) (c := l' ++ [p] ++ x :: r) (by
        have := hw; rw [‹h :: l = l' ++ [p]›] at this; exact this)
      (by
        have := isList_splice (s' := upd (upd s p (s x)) x 0x140) (r' := r) hc (fun z hz => e z (by nd) (by nd)) (by
          have e1 : upd (upd s p (s x)) x 0x140 p = s x := by simp [upd, hpx]
          cases r with
          | nil => exact e1.trans hr
          | cons y r => exact ⟨e1.trans hr.1, hr.2.1, chain_frame hr.2.2 (fun z hz => e z (by nd) (by nd))⟩)
        simpa using this)
      (fun z hz => e z (by nd) (by nd)) (by nd)
    exact ⟨_, by simp only [Op.run, Slist.del, hfp, bind, Option.bind]; rfl, hW⟩
  | @replace W h l o r n h0 hn =>
    have hnd : (n :: ((h :: l ++ o :: r) ++ W.flatten)).Nodup := List.nodup_cons.2 ⟨by simpa using hn, by simpa using hw.nodup⟩
    have hc := hw.list _ (List.mem_cons_self ..)
    obtain ⟨l', p, e⟩ := split_prev h l
    have hhd : (l' ++ [p]).head? = some h := by rw [← e]; rfl
    have hlen : l'.length < fuel := by
      have := congrArg List.length e
      simp only [List.flatten_cons, List.length_append, List.length_cons, List.length_nil] at hf this
      omega
    rw [e] at hc hnd ⊢
    replace hc : IsList s (l' ++ p :: o :: r) := by simpa using hc
    have hfp := findPrev_ok hc (by ndn hnd) hlen h hhd
    obtain ⟨hp0, -, ho0, hr⟩ := isList_tail hc
    have hpo : o ≠ p := by nd
    have hpn : p ≠ n := by nd
    have e : ∀ z, z ≠ p → z ≠ n → upd (upd s p n) n (upd s p n o) z = s z := fun z h1 h2 => by simp [upd, h1, h2]
    have hW := world_one (s' := upd (upd s p n) n (upd s p n o)) (c' := l' ++ [p] ++ n :: r) (W := W) (c := l' ++ [p] ++ o :: r) (by
        have := hw; rw [‹h :: l = l' ++ [p]›] at this; exact this)
      (by
        have := isList_splice (s' := upd (upd s p n) n (upd s p n o)) (r' := n :: r) hc (fun z hz => e z (by nd) (by nd)) (by
          have e1 : upd (upd s p n) n (upd s p n o) p = n := by simp [upd, hpn]
          have e2 : upd (upd s p n) n (upd s p n o) n = s o := by simp [upd, hpo]
          refine ⟨e1, h0, ?_⟩
          cases r with
          | nil => exact e2.trans hr
          | cons y r => exact ⟨e2.trans hr.1, hr.2.1, chain_frame hr.2.2 (fun z hz => e z (by nd) (by nd))⟩)
        simpa using this)
      (fun z hz => e z (by nd) (by nd)) (by nd)
    exact ⟨_, by simp only [Op.run, Slist.replace, hfp, bind, Option.bind]; rfl, hW⟩

theorem step_length {W W' : List (List Addr)} {op : Op} (h : Step W op W') : W'.flatten.length ≤ W.flatten.length + 1 := by
  induction h with
  | perm hp _ ih => rw [hp.flatten.length_eq]; exact ih
  | headInit => simp
  | add => simp; omega
  | del => simp; omega
  | replace => simp

/-- C19, histories: `fuel` only has to exceed the number of nodes in memory at every point; a history of `ops` creates at most
`ops.length` nodes. -/
theorem slist_histories {fuel : Nat} {s : Heap} {W W' : List (List Addr)} {ops : List Op} (hf : W.flatten.length + ops.length ≤ fuel) (hw : World s W)
    (hs : Steps W ops W') : ∃ s', runAll fuel s ops = some s' ∧ World s' W' := by
  induction hs generalizing s with
  | nil => exact ⟨s, rfl, hw⟩
  | @cons W op W' ops W'' h _ ih =>
    obtain ⟨s1, e1, w1⟩ := step_sound (fuel := fuel) (by omega) hw h
    have hlen := step_length h
    obtain ⟨s2, e2, w2⟩ := ih (by simp only [List.length_cons] at hf; omega) w1
    exact ⟨s2, by simp only [runAll, e1, bind, Option.bind]; exact e2, w2⟩

/-- C19: walking a list visits its nodes in order and ends. -/
theorem traversal {s : Heap} {h : Addr} {xs : List Addr} (hc : IsList s (h :: xs)) (fuel : Nat) (hf : xs.length < fuel) :
    forEach s h fuel = some xs := by
  unfold forEach
  replace hc := hc.2
  induction xs generalizing h fuel with
  | nil =>
    obtain ⟨f, rfl⟩ : ∃ f, fuel = f + 1 := ⟨fuel - 1, by simp at hf; omega⟩
    have : s h = 0 := hc
    simp [walkFrom, this]
  | cons x xs ih =>
    obtain ⟨f, rfl⟩ : ∃ f, fuel = f + 1 := ⟨fuel - 1, by simp at hf; omega⟩
    rw [hc.1, walkFrom, if_neg hc.2.1, ih f (by simp at hf; omega) hc.2.2]
    rfl

/-- C19: the tests answer the question they are named after. -/
theorem checks {s : Heap} {h : Addr} {xs : List Addr} (hc : IsList s (h :: xs)) (hnd : (h :: xs).Nodup) :
    (checkEmpty s h = true ↔ xs = []) ∧ ∀ x ∈ xs, (checkFirst s h x = true ↔ xs.head? = some x) ∧ (checkEnd s x = true ↔ xs.getLast? = some x) ∧
      (checkAnother s h x = true ↔ xs = [x]) := by
  obtain ⟨hh, hc⟩ := hc
  have hz : ∀ {a : Addr} {l : List Addr}, Chain s a l → (s a = 0 ↔ l = []) := by
    intro a l h
    cases l with
    | nil => exact ⟨fun _ => rfl, fun _ => h⟩
    | cons x l => simp [h.1, h.2.1]
  have hend : ∀ x ∈ xs, (s x = 0 ↔ xs.getLast? = some x) := by
    intro x hx
    obtain ⟨l, r, rfl⟩ := List.append_of_mem hx
    rw [hz (chain_tail hc).2]
    cases r with
    | nil => simp
    | cons y r =>
      simp only [reduceCtorEq, false_iff]
      intro e
      have h1 : (l ++ x :: y :: r).getLast? = (y :: r).getLast? := by simp [List.getLast?_append, List.getLast?_cons]
      rw [h1] at e
      have := List.mem_of_getLast? e
      grind
  have hfirst : ∀ x ∈ xs, (s h = x ↔ xs.head? = some x) := by
    intro x hx
    cases xs with
    | nil => simp at hx
    | cons y t => simp [hc.1]
  refine ⟨by simpa [checkEmpty] using hz hc, fun x hx => ⟨by simpa [checkFirst] using hfirst x hx, by simpa [checkEnd] using hend x hx, ?_⟩⟩
  simp only [checkAnother, Bool.and_eq_true, beq_iff_eq, hfirst x hx, hend x hx]
  cases xs with
  | nil => simp at hx
  | cons y t =>
    cases t with
    | nil => simp
    | cons z t =>
      simp only [List.head?_cons, Option.some.injEq, List.cons.injEq, reduceCtorEq, and_false, iff_false, not_and]
      rintro rfl e
      have h1 : (y :: z :: t).getLast? = (z :: t).getLast? := by simp [List.getLast?_cons]
      rw [h1] at e
      have := List.mem_of_getLast? e
      grind

/-- Outside the contract: deleting a node that is not in the list runs off its end. -/
theorem del_absent_fails {s : Heap} {h x : Addr} (hx : x ≠ 0) : ∀ {xs : List Addr}, IsList s (h :: xs) → x ∉ xs → ∀ fuel, del s h x fuel = none := by
  intro xs hc hn fuel
  have key : ∀ (fuel : Nat) {xs : List Addr} {h : Addr}, Chain s h xs → x ∉ xs → findPrev s x fuel h = none := by
    intro fuel
    induction fuel with
    | zero => intros; rfl
    | succ f ih =>
      intro xs h hc hn
      rw [findPrev]
      split
      · rfl
      · cases xs with
        | nil =>
          have e : s h = 0 := hc
          rw [e, if_pos hx.symm]
          cases f <;> simp [findPrev]
        | cons y t =>
          rw [hc.1, if_pos (by rintro rfl; exact hn (by simp))]
          exact ih hc.2.2 (fun h => hn (by simp [h]))
  simp [del, key fuel hc.2 hn]

example (s : Heap) : ∃ s', runAll 6 s [.headInit 9, .add 9 2, .add 9 1, .add 2 3, .replace 9 2 5, .del 9 1] = some s' ∧ World s' [[9, 5, 3]] := by
  refine slist_histories (W := []) (by simp) ⟨by simp, by simp⟩ ?_
  refine .cons (Step.headInit (by simp) (by simp)) ?_
  refine .cons (Step.add (l := []) (r := []) (by simp) (by simp)) ?_
  refine .cons (Step.add (l := []) (r := [2]) (by simp) (by simp)) ?_
  refine .cons (Step.add (l := [9, 1]) (r := []) (by simp) (by simp)) ?_
  refine .cons (Step.replace (l := [1]) (r := [3]) (by simp) (by simp)) ?_
  refine .cons (Step.del (l := []) (r := [5, 3])) ?_
  exact .nil

end Bfdev.Slist

import Verif.Slist.Props
/-!
The checks of `BFDEV_DEBUG_SLIST`, which the default configuration turns on (CMakeLists.txt:59): `src/slist-debug.c` and the operations of `include/bfdev/slist.h` that
call them. A failed check is reported (not modelled) and the operation returns without touching memory.
-/
namespace Bfdev.Slist

/-- `bfdev_slist_check_add`, slist-debug.c:14-36. -/
def debugAdd (s : Heap) (node newn : Addr) : Bool :=
  if s node = newn then false
  else if node = newn then false
  else true

/-- `bfdev_slist_check_del`, slist-debug.c:38-51. -/
def debugDel (s : Heap) (node : Addr) : Bool := if s node = 0x140 then false else true

/-- `bfdev_slist_add`, slist.h:56-66, with its check. -/
def addD (s : Heap) (node newn : Addr) : Heap := if !debugAdd s node newn then s else add s node newn

/-- `bfdev_slist_del`, slist.h:73-89, with its check. -/
def delD (s : Heap) (head node : Addr) (fuel : Nat) : Option Heap := if !debugDel s node then some s else del s head node fuel

/-- The operations as the default configuration compiles them. -/
def Op.runD (fuel : Nat) (s : Heap) : Op → Option Heap
  | .add a n => some (addD s a n)
  | .del h x => delD s h x fuel
  | op => op.run fuel s

def runAllD (fuel : Nat) (s : Heap) : List Op → Option Heap
  | [] => some s
  | op :: ops => do runAllD fuel (← op.runD fuel s) ops

/-- The nodes an operation is called with. -/
def Op.nodes : Op → List Addr
  | .headInit h => [h]
  | .add a n => [a, n]
  | .del h x => [h, x]
  | .replace h o n => [h, o, n]

theorem chain_next_mem {s : Heap} {a : Addr} {l : List Addr} (h : Chain s a l) : s a = 0 ∨ s a ∈ l := by
  cases l with
  | nil => exact .inl h
  | cons x l => exact .inr (by rw [h.1]; simp)

theorem runD_eq {fuel : Nat} {s : Heap} {W W' : List (List Addr)} {op : Op} (hw : World s W) (hs : Step W op W') (hp : 0x140 ∉ W.flatten) :
    op.runD fuel s = op.run fuel s := by
  induction hs with
  | perm hq _ ih =>
    exact ih ⟨fun c hc => hw.list c (hq.mem_iff.2 hc), (hq.flatten.nodup_iff).1 hw.nodup⟩ (fun e => hp ((hq.flatten.mem_iff).2 e))
  | @add W l a r n h0 hn =>
    have hc := (isList_tail (hw.list (l ++ a :: r) (by simp))).2
    have h1 : s a ≠ n := by
      rintro rfl
      rcases chain_next_mem hc with h | h
      · exact h0 h
      · apply hn; simp [h]
    have h2 : a ≠ n := by rintro rfl; apply hn; simp
    simp [Op.runD, Op.run, addD, debugAdd, h1, h2]
  | @del W h l x r =>
    have hc := (isList_tail (l := h :: l) (hw.list (h :: l ++ x :: r) (by simp))).2
    have h1 : s x ≠ 0x140 := by
      intro e
      rcases chain_next_mem hc with h | h
      · rw [e] at h; cases h
      · rw [e] at h; apply hp; simp [h]
    simp [Op.runD, Op.run, delD, debugDel, h1]
  | _ => rfl

theorem step_nodes {W W' : List (List Addr)} {op : Op} (hs : Step W op W') : ∀ z ∈ W'.flatten, z ∈ W.flatten ∨ z ∈ op.nodes := by
  induction hs with
  | perm hq _ ih =>
    intro z hz
    exact (ih z hz).imp_left fun h => (hq.flatten.mem_iff).2 h
  | _ =>
    intro z hz
    simp only [List.flatten_cons, List.mem_append, List.mem_cons, Op.nodes] at hz ⊢
    grind

/-- C91, single lists. Every history of legal operations does with the checks exactly what it does without them, in every memory without a node at the address 0x140. -/
theorem checked_histories {fuel : Nat} {s : Heap} {W W' : List (List Addr)} {ops : List Op} (hf : W.flatten.length + ops.length ≤ fuel) (hw : World s W)
    (hs : Steps W ops W') (hp : 0x140 ∉ W.flatten) (ho : ∀ op ∈ ops, 0x140 ∉ op.nodes) :
    runAllD fuel s ops = runAll fuel s ops ∧ ∃ s', runAllD fuel s ops = some s' ∧ World s' W' := by
  have key : ∀ {s : Heap}, World s W → runAllD fuel s ops = runAll fuel s ops := by
    clear hw s
    induction hs with
    | nil => intro s _; rfl
    | @cons W op W' ops W'' h _ ih =>
      intro s hw
      have h1 := ho op (by simp)
      have h2 : 0x140 ∉ W'.flatten := fun e => (step_nodes h _ e).elim hp h1
      have hlen := step_length h
      simp only [List.length_cons] at hf
      obtain ⟨s', e, hw'⟩ := step_sound (fuel := fuel) (by omega) hw h
      simp only [runAllD, runAll]
      rw [runD_eq hw h hp, e]
      exact ih (by omega) h2 (fun op hop => ho op (by simp [hop])) hw'
  refine ⟨key hw, ?_⟩
  rw [key hw]
  exact slist_histories hf hw hs

/-- C91, single lists. In any memory whatever, a deleted node is not deleted again (which would not end, or crash: C19), and a node is not added behind itself or behind its
predecessor: memory is left as it is. -/
theorem misuse_refused (s : Heap) (a h x : Addr) (fuel : Nat) :
    (∀ s', delD s h x fuel = some s' → ∀ h' fuel', delD s' h' x fuel' = some s') ∧ addD s a a = s ∧ addD s a (s a) = s := by
  refine ⟨fun s' e h' fuel' => ?_, by simp [addD, debugAdd], by simp [addD, debugAdd]⟩
  by_cases hd : s x = 0x140
  · have : s' = s := by simpa [delD, debugDel, hd] using e.symm
    subst this
    simp [delD, debugDel, hd]
  · simp only [delD, debugDel, hd, if_false] at e
    cases hw : findPrev s x fuel h with
    | none => simp [del, hw] at e
    | some w =>
      have : s' x = 0x140 := by
        simp [del, hw] at e
        rw [← e, upd_eq]
      simp [delD, debugDel, this]

/-- A history the theorem speaks about. -/
example : Steps [] [.headInit 1, .add 1 2, .add 1 3, .del 1 2] [[1, 3]] ∧ ∀ op ∈ [Op.headInit 1, .add 1 2, .add 1 3, .del 1 2], 0x140 ∉ op.nodes := by
  refine ⟨.cons (.headInit (by simp) (by simp)) (.cons (.add (l := []) (by simp) (by simp)) (.cons (.add (l := []) (by simp) (by simp))
    (.cons (.del (l := [3])) .nil))), ?_⟩
  simp [Op.nodes]

/-- C91, singly linked lists. Nothing else is refused. -/
theorem only_misuse_refused (s : Heap) (a h x : Addr) (fuel : Nat) :
    (s x = 0x140 → delD s h x fuel = some s) ∧ (s x ≠ 0x140 → delD s h x fuel = del s h x fuel) ∧ (x ≠ a → x ≠ s a → addD s a x = add s a x) :=
  ⟨fun h => by simp [delD, debugDel, h], fun h => by simp [delD, debugDel, h], fun h1 h2 => by simp [addD, debugAdd, Ne.symm h1, Ne.symm h2]⟩

end Bfdev.Slist

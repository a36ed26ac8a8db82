import Verif.Hlist.Props
/-!
The checks of `BFDEV_DEBUG_HLIST`, which the default configuration turns on (CMakeLists.txt:60): `src/hlist-debug.c` and the operations of `include/bfdev/hlist.h` that
call them. A failed check is reported (not modelled) and the operation returns without touching memory.
-/
namespace Bfdev.Hlist
open Bfdev.Dlist (Addr Heap)

/-- `bfdev_hlist_check_head_add`, hlist-debug.c:14-27. -/
def debugHeadAdd (s : Heap) (head newn : Addr) : Bool := if s.next head = newn then false else true

/-- `bfdev_hlist_check_next_add`, hlist-debug.c:29-43. -/
def debugNextAdd (s : Heap) (next newn : Addr) : Bool := if s.next next = newn then false else true

/-- `bfdev_hlist_check_prev_add`, hlist-debug.c:45-59; `&newn->next` is the address of the node. -/
def debugPrevAdd (s : Heap) (prev newn : Addr) : Bool := if s.prev prev = newn then false else true

/-- `bfdev_hlist_check_del`, hlist-debug.c:61-83. -/
def debugDel (s : Heap) (node : Addr) : Bool :=
  if s.next node = 0x120 then false
  else if s.prev node = 0x130 then false
  else true

/-- `bfdev_hlist_head_add`, hlist.h:79-93, with its check. -/
def headAddD (s : Heap) (head newn : Addr) : Heap := if !debugHeadAdd s head newn then s else headAdd s head newn

/-- `bfdev_hlist_next_add`, hlist.h:100-114, with its check. -/
def nextAddD (s : Heap) (node newn : Addr) : Heap := if !debugNextAdd s node newn then s else nextAdd s node newn

/-- `bfdev_hlist_prev_add`, hlist.h:121-133, with its check. -/
def prevAddD (s : Heap) (node newn : Addr) : Option Heap := if !debugPrevAdd s node newn then some s else prevAdd s node newn

/-- `bfdev_hlist_del`, hlist.h:156-167, with its check. -/
def delD (s : Heap) (node : Addr) : Option Heap := if !debugDel s node then some s else del s node

/-- The operations as the default configuration compiles them. -/
def Op.runD (s : Heap) : Op → Option Heap
  | .headAdd h n => some (headAddD s h n)
  | .nextAdd a n => some (nextAddD s a n)
  | .del x => delD s x
  | op => op.run s

def runAllD (s : Heap) : List Op → Option Heap
  | [] => some s
  | op :: ops => do runAllD (← op.runD s) ops

/-- The nodes an operation is called with. -/
def Op.nodes : Op → List Addr
  | .headInit h | .del h | .delInit h => [h]
  | .headAdd a n | .nextAdd a n | .headReplace a n | .replace a n => [a, n]

/-- No node is at one of the two addresses deleted nodes point to. -/
def Poisonless (l : List Addr) : Prop := 0x120 ∉ l ∧ 0x130 ∉ l

theorem next_fresh {s : Heap} {a n : Addr} {r : List Addr} (hc : Chain s a r) (h0 : n ≠ 0) (hn : n ∉ r) : s.next a ≠ n := by
  rintro rfl
  exact hn (chain_next_mem hc h0)

theorem isChain_last {s : Heap} {l : List Addr} {a : Addr} (h : IsChain s (l ++ [a])) : s.next a = 0 := by
  cases l with
  | nil => exact h.2
  | cons b l => exact (chain_tail h.2).2

theorem runD_eq {s : Heap} {W W' : List (List Addr)} {op : Op} (hw : World s W) (hs : Step W op W') (hp : Poisonless W.flatten) : op.runD s = op.run s := by
  induction hs with
  | perm hq _ ih => exact ih (world_perm hq hw) ⟨fun e => hp.1 ((hq.flatten.mem_iff).2 e), fun e => hp.2 ((hq.flatten.mem_iff).2 e)⟩
  | @headAdd W h l n h0 hn =>
    have := next_fresh (hw.chain (h :: l) (by simp)).2 h0 (by simp at hn; exact hn.2.1)
    simp [Op.runD, Op.run, headAddD, debugHeadAdd, this]
  | @nextAdd W l a n h0 hn =>
    have h1 := isChain_last (hw.chain (l ++ [a]) (by simp))
    simp [Op.runD, Op.run, nextAddD, debugNextAdd, h1, Ne.symm h0]
  | @del W h l x r =>
    have hc := (hw.chain (h :: l ++ x :: r) (by simp)).2
    have h1 : s.next x ≠ 0x120 := by
      intro e
      have := chain_next_mem (chain_tail hc).2 (by rw [e]; decide)
      rw [e] at this
      apply hp.1; simp [this]
    have h2 : s.prev x ≠ 0x130 := by
      intro e
      have := chain_prev hc
      rw [e] at this
      apply hp.2; simp at this ⊢; grind
    simp [Op.runD, Op.run, delD, debugDel, h1, h2]
  | _ => rfl

theorem step_nodes {W W' : List (List Addr)} {op : Op} (hs : Step W op W') : ∀ z ∈ W'.flatten, z ∈ W.flatten ∨ z ∈ op.nodes := by
  induction hs with
  | perm hq _ ih =>
    intro z hz
    exact (ih z hz).imp_left fun h => (hq.flatten.mem_iff).2 h
  | _ =>
    intro z hz
    simp only [List.flatten_cons, List.mem_append, List.mem_cons, Op.nodes] at hz ⊢
    grind

/-- C91, hash chains. Every history of legal operations does with the checks exactly what it does without them, in every memory without nodes at the addresses 0x120
and 0x130. -/
theorem checked_histories {s : Heap} {W W' : List (List Addr)} {ops : List Op} (hw : World s W) (hs : Steps W ops W') (hp : Poisonless W.flatten)
    (ho : ∀ op ∈ ops, Poisonless op.nodes) : runAllD s ops = runAll s ops ∧ ∃ s', runAllD s ops = some s' ∧ World s' W' := by
  have key : ∀ {s : Heap}, World s W → runAllD s ops = runAll s ops := by
    clear hw s
    induction hs with
    | nil => intro s _; rfl
    | @cons W op W' ops W'' h _ ih =>
      intro s hw
      have h1 := ho op (by simp)
      have h2 : Poisonless W'.flatten := ⟨fun e => (step_nodes h _ e).elim hp.1 h1.1, fun e => (step_nodes h _ e).elim hp.2 h1.2⟩
      obtain ⟨s', e, hw'⟩ := step_sound_partial hw h
      simp only [runAllD, runAll]
      rw [runD_eq hw h hp, e]
      exact ih h2 (fun op hop => ho op (by simp [hop])) hw'
  refine ⟨key hw, ?_⟩
  rw [key hw]
  exact hlist_histories_partial hw hs

/-- C91, hash chains. In any memory whatever, a deleted node is not deleted again, and a node is not added where it already is: memory is left as it is. -/
theorem misuse_refused (s : Heap) (a x : Addr) :
    (∀ s', delD s x = some s' → delD s' x = some s') ∧ headAddD s a (s.next a) = s ∧ nextAddD s a (s.next a) = s ∧ prevAddD s a (s.prev a) = some s := by
  refine ⟨fun s' e => ?_, by simp [headAddD, debugHeadAdd], by simp [nextAddD, debugNextAdd], by simp [prevAddD, debugPrevAdd]⟩
  by_cases hd : debugDel s x
  · simp only [delD, hd] at e
    cases hw : deluf s x with
    | none => simp [del, hw] at e
    | some w =>
      have : s'.next x = 0x120 := by
        simp [del, hw] at e
        rw [← e]; simp [Heap.setNext, Heap.setPrev, Dlist.upd]
      simp [delD, debugDel, this]
  · have : s' = s := by simpa [delD, hd] using e.symm
    subst this
    simp [delD, hd]

/-- C91, hash chains. Nothing else is refused: in any memory, a call whose node carries neither mark of a deleted node, or is not already where it should go, does what it does
without the checks; one of the two marks is enough to refuse a deletion. -/
theorem only_misuse_refused (s : Heap) (a x : Addr) :
    (s.next x = 0x120 ∨ s.prev x = 0x130 → delD s x = some s) ∧ (s.next x ≠ 0x120 → s.prev x ≠ 0x130 → delD s x = del s x) ∧
    (s.next a ≠ x → headAddD s a x = headAdd s a x ∧ nextAddD s a x = nextAdd s a x) ∧ (s.prev a ≠ x → prevAddD s a x = prevAdd s a x) := by
  refine ⟨fun h => ?_, fun h1 h2 => by simp [delD, debugDel, h1, h2], fun h => by simp [headAddD, nextAddD, debugHeadAdd, debugNextAdd, h],
    fun h => by simp [prevAddD, debugPrevAdd, h]⟩
  rcases h with h | h <;> simp [delD, debugDel, h]

/-- A history the theorem speaks about. -/
example : Steps [] [.headInit 1, .headAdd 1 2, .headAdd 1 3, .del 2] [[1, 3]] ∧ ∀ op ∈ [Op.headInit 1, .headAdd 1 2, .headAdd 1 3, .del 2], Poisonless op.nodes := by
  refine ⟨.cons (.headInit (by simp) (by simp)) (.cons (.headAdd (by simp) (by simp)) (.cons (.headAdd (by simp) (by simp))
    (.cons (.del (l := [3])) .nil))), ?_⟩
  simp [Op.nodes, Poisonless]

end Bfdev.Hlist

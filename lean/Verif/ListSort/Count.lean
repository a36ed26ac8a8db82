import Verif.ListSort.Props
/-!
The list sort with a comparison that answers anything (C107): the `k`-th call of the callback is `cmp k`, so its answers may
depend on everything that happened before. The model is that of `ListSort/Model.lean` with the number of calls made so far
carried along; `countSort_plain` shows that it is the same function when the answers depend on the nodes only.
-/
namespace Bfdev.ListSort
open Bfdev.Dlist (Addr Heap)

section
variable (cmp : Nat → Addr → Addr → Int)

/-- `mergeLoop` with the calls counted, list-sort.c:16-34. -/
def countMergeLoop : Nat → Nat → Heap → Addr → Option Addr → Addr → Addr → Option (Heap × Addr × Nat)
  | 0, _, _, _, _, _, _ => none
  | fuel + 1, k, s, node, tail, node1, node2 => do
    let node1 ← deref node1
    let node2 ← deref node2
    if cmp k node1 node2 ≤ 0 then
      let (s, node) := storeNext s node tail node1
      let tail := some node1
      let node1 := s.next node1
      if node1 = 0 then
        let r := storeNext s node tail node2
        some (r.1, r.2, k + 1)
      else countMergeLoop fuel (k + 1) s node tail node1 node2
    else
      let (s, node) := storeNext s node tail node2
      let tail := some node2
      let node2 := s.next node2
      if node2 = 0 then
        let r := storeNext s node tail node1
        some (r.1, r.2, k + 1)
      else countMergeLoop fuel (k + 1) s node tail node1 node2

/-- `merge` with the calls counted, list-sort.c:9-37. -/
def countMerge (fuel k : Nat) (s : Heap) (node1 node2 : Addr) : Option (Heap × Addr × Nat) :=
  countMergeLoop cmp fuel k s 0 none node1 node2

/-- `finishLoop` with the calls counted, list-sort.c:46-64. -/
def countFinishLoop : Nat → Nat → Heap → Addr → Addr → Addr → Option (Heap × Addr × Addr × Nat)
  | 0, _, _, _, _, _ => none
  | fuel + 1, k, s, tail, node1, node2 => do
    let node1 ← deref node1
    let node2 ← deref node2
    if cmp k node1 node2 ≤ 0 then
      let s := (s.setNext tail node1).setPrev node1 tail
      let tail := node1
      let node1 := s.next node1
      if node1 = 0 then some (s, tail, node2, k + 1)
      else countFinishLoop fuel (k + 1) s tail node1 node2
    else
      let s := (s.setNext tail node2).setPrev node2 tail
      let tail := node2
      let node2 := s.next node2
      if node2 = 0 then some (s, tail, node1, k + 1)
      else countFinishLoop fuel (k + 1) s tail node1 node2

/-- `finish` with the calls counted, list-sort.c:39-75. -/
def countFinish (fuel k : Nat) (s : Heap) (head node1 node2 : Addr) : Option (Heap × Nat) := do
  let (s, tail, node2, k) ← countFinishLoop cmp fuel k s head node1 node2
  let s := s.setNext tail node2
  let (s, tail) ← relink fuel s tail node2
  return ((s.setNext tail head).setPrev head tail, k)

/-- `mergePending` with the calls counted, list-sort.c:98-107. -/
def countMergePending (mfuel k : Nat) (s : Heap) (pending : Addr) (tail : Option Addr) (bits : Nat) : Option (Heap × Addr × Nat) :=
  if bits ≠ 0 then do
    let node2 ← deref (load s pending tail)
    let node1 ← deref (s.prev node2)
    let (s, node2, k) ← countMerge cmp mfuel k s node1 node2
    let s := s.setPrev node2 (s.prev node1)
    let r := storePrev s pending tail node2
    some (r.1, r.2, k)
  else some (s, pending, k)

/-- `sortLoop` with the calls counted, list-sort.c:90-114. -/
def countSortLoop (mfuel : Nat) : Nat → Nat → Heap → Addr → Addr → Nat → Option (Heap × Addr × Nat)
  | 0, _, _, _, _, _ => none
  | fuel + 1, k, s, pending, node, count =>
    if node = 0 then some (s, pending, k)
    else do
      let (tail, bits) ← skip s pending 33 none count
      let (s, pending, k) ← countMergePending cmp mfuel k s pending tail bits
      let s := s.setPrev node pending
      let pending := node
      let node := s.next node
      let s := s.setNext pending 0
      countSortLoop mfuel fuel k s pending node ((count + 1) % 2 ^ 32)

/-- `collapse` with the calls counted, list-sort.c:119-128. -/
def countCollapse (mfuel : Nat) : Nat → Nat → Heap → Addr → Addr → Option (Heap × Addr × Addr × Nat)
  | 0, _, _, _, _ => none
  | fuel + 1, k, s, pending, node => do
    let pending ← deref pending
    let next := s.prev pending
    if next = 0 then some (s, pending, node, k)
    else
      let (s, node, k) ← countMerge cmp mfuel k s pending node
      countCollapse mfuel fuel k s next node

/-- `bfdev_list_sort` with the calls of the comparison counted, list-sort.c:77-131. -/
def countSort (fuel : Nat) (s : Heap) (head : Addr) : Option (Heap × Nat) :=
  let node := s.next head
  if node = s.prev head then some (s, 0)
  else do
    let s := s.setNext (s.prev head) 0
    let (s, pending, k) ← countSortLoop cmp fuel fuel 0 s 0 node 0
    let node ← deref pending
    let pending := s.prev node
    let (s, pending, node, k) ← countCollapse cmp fuel fuel k s pending node
    countFinish cmp fuel k s head pending node

end

/-! ### The same function when the answers depend on the nodes only -/

section
variable (cmp : Addr → Addr → Int)

theorem bind_plain {β β' γ γ' : Type} {o : Option β} {p : Option β'} {m : β → β'} (h : o.map m = p) {f : β → Option γ} {g : β' → Option γ'}
    {m' : γ → γ'} (hf : ∀ r, (f r).map m' = g (m r)) : (o.bind f).map m' = p.bind g := by
  subst h
  cases o with
  | none => rfl
  | some r => exact hf r

theorem countMergeLoop_plain (fuel k : Nat) (s : Heap) (node : Addr) (tail : Option Addr) (n1 n2 : Addr) :
    (countMergeLoop (fun _ => cmp) fuel k s node tail n1 n2).map (fun r => (r.1, r.2.1)) = mergeLoop cmp fuel s node tail n1 n2 := by
  induction fuel generalizing k s node tail n1 n2 with
  | zero => rfl
  | succ fuel ih =>
    rw [countMergeLoop, mergeLoop]
    refine bind_plain (m := id) (by simp) (fun a => bind_plain (m := id) (by simp) (fun b => ?_))
    simp only [id]
    split
    · split
      · rfl
      · exact ih _ _ _ _ _ _
    · split
      · rfl
      · exact ih _ _ _ _ _ _

theorem countMerge_plain (fuel k : Nat) (s : Heap) (n1 n2 : Addr) :
    (countMerge (fun _ => cmp) fuel k s n1 n2).map (fun r => (r.1, r.2.1)) = merge cmp fuel s n1 n2 := countMergeLoop_plain _ _ _ _ _ _ _ _

theorem countFinishLoop_plain (fuel k : Nat) (s : Heap) (tail n1 n2 : Addr) :
    (countFinishLoop (fun _ => cmp) fuel k s tail n1 n2).map (fun r => (r.1, r.2.1, r.2.2.1)) = finishLoop cmp fuel s tail n1 n2 := by
  induction fuel generalizing k s tail n1 n2 with
  | zero => rfl
  | succ fuel ih =>
    rw [countFinishLoop, finishLoop]
    refine bind_plain (m := id) (by simp) (fun a => bind_plain (m := id) (by simp) (fun b => ?_))
    simp only [id]
    split
    · split
      · rfl
      · exact ih _ _ _ _ _
    · split
      · rfl
      · exact ih _ _ _ _ _

theorem countFinish_plain (fuel k : Nat) (s : Heap) (head n1 n2 : Addr) :
    (countFinish (fun _ => cmp) fuel k s head n1 n2).map (·.1) = finish cmp fuel s head n1 n2 := by
  unfold countFinish finish
  refine bind_plain (countFinishLoop_plain cmp fuel k s head n1 n2) (fun r => ?_)
  exact bind_plain (m := id) (by simp) (fun q => rfl)

theorem countMergePending_plain (mfuel k : Nat) (s : Heap) (pending : Addr) (tail : Option Addr) (bits : Nat) :
    (countMergePending (fun _ => cmp) mfuel k s pending tail bits).map (fun r => (r.1, r.2.1)) = mergePending cmp mfuel s pending tail bits := by
  unfold countMergePending mergePending
  split
  · refine bind_plain (m := id) (by simp) (fun a => bind_plain (m := id) (by simp) (fun b => ?_))
    exact bind_plain (countMerge_plain cmp mfuel k s _ _) (fun r => rfl)
  · rfl

theorem countSortLoop_plain (mfuel fuel k : Nat) (s : Heap) (pending node : Addr) (count : Nat) :
    (countSortLoop (fun _ => cmp) mfuel fuel k s pending node count).map (fun r => (r.1, r.2.1)) = sortLoop cmp mfuel fuel s pending node count := by
  induction fuel generalizing k s pending node count with
  | zero => rfl
  | succ fuel ih =>
    rw [countSortLoop, sortLoop]
    split
    · rfl
    · refine bind_plain (m := id) (by simp) (fun a => ?_)
      exact bind_plain (countMergePending_plain cmp mfuel k s pending _ _) (fun r => ih _ _ _ _ _)

theorem countCollapse_plain (mfuel fuel k : Nat) (s : Heap) (pending node : Addr) :
    (countCollapse (fun _ => cmp) mfuel fuel k s pending node).map (fun r => (r.1, r.2.1, r.2.2.1)) = collapse cmp mfuel fuel s pending node := by
  induction fuel generalizing k s pending node with
  | zero => rfl
  | succ fuel ih =>
    rw [countCollapse, collapse]
    refine bind_plain (m := id) (by simp) (fun a => ?_)
    simp only [id]
    split
    · rfl
    · exact bind_plain (countMerge_plain cmp mfuel k s _ _) (fun r => ih _ _ _ _)

/-- Counting the calls changes nothing else. -/
theorem countSort_plain (fuel : Nat) (s : Heap) (head : Addr) :
    (countSort (fun _ => cmp) fuel s head).map (·.1) = sort cmp fuel s head := by
  unfold countSort sort
  simp only
  split
  · rfl
  · refine bind_plain (countSortLoop_plain cmp fuel fuel 0 _ 0 _ 0) (fun r => ?_)
    refine bind_plain (m := id) (by simp) (fun a => ?_)
    exact bind_plain (countCollapse_plain cmp fuel fuel r.2.2 _ _ _) (fun q => countFinish_plain cmp fuel _ _ _ _ _)

end

end Bfdev.ListSort

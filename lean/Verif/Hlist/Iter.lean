import Verif.Hlist.Props
import Verif.Slist.Iter
/-!
C92, hash chains: every iteration macro of `include/bfdev/hlist.h`. The loops are those of `Verif/Slist/Iter.lean` over the forward link of a
hash chain; `bfdev_hlist_for_each_entry_safe` alone has another shape and is written out here.
-/
namespace Bfdev.Hlist
open Bfdev.Dlist (Addr Heap Start Splits)
open Bfdev.Slist (nullIter nullSafe nullIterSafe only)

/-- `bfdev_hlist_for_each_entry_safe`, hlist.h:374-377: the loop test loads `tmp`, the step loads it again. -/
def entrySafeLoop (body : Heap → Addr → Option Heap) : Nat → Heap → Addr → Option (List Addr × Heap)
  | 0, _, _ => none
  | fuel + 1, s, pos =>
    if pos = 0 then some ([], s)
    else
      let tmp := s.next pos
      (body s pos).bind fun s => (entrySafeLoop body fuel s tmp).map fun r => (pos :: r.1, r.2)

/-- The whole macro, hlist.h:374-377. -/
def entrySafe (head : Addr) (body : Heap → Addr → Option Heap) (fuel : Nat) (s : Heap) : Option (List Addr × Heap) :=
  entrySafeLoop body fuel s (s.next head)

theorem chain_forward {s : Heap} : ∀ {l : List Addr} {a : Addr}, Chain s a l → Slist.Chain s.next a l
  | [], _, h => h
  | _ :: _, _, h => ⟨h.1, h.2.1, chain_forward h.2.2.2⟩

/-- Loading the temporary again in the loop test changes nothing. -/
theorem entrySafeLoop_eq (body : Heap → Addr → Option Heap) : ∀ (fuel : Nat) (s : Heap) (pos tmp : Addr), (pos ≠ 0 → tmp = s.next pos) →
    entrySafeLoop body fuel s pos = nullSafe Heap.next body fuel s pos tmp
  | 0, _, _, _, _ => rfl
  | fuel + 1, s, pos, tmp, ht => by
    by_cases h0 : pos = 0
    · simp [entrySafeLoop, nullSafe, h0]
    · simp only [entrySafeLoop, nullSafe, if_neg h0]
      rw [← ht h0]
      cases body s pos with
      | none => rfl
      | some s1 =>
        simp only [Option.bind_some]
        rw [entrySafeLoop_eq body fuel s1 tmp (if tmp = 0 then tmp else s1.next tmp) (fun h => by rw [if_neg h])]

/-- C92. On a well formed chain, every plain iteration macro terminates and meets exactly the nodes from its start to the end, each once, in order;
a NULL cursor gives an empty iteration. -/
theorem iteration {s : Heap} {h : Addr} {xs p q : List Addr} {start : Start} (hc : IsChain s (h :: xs)) (hs : Splits xs start p q) (fuel : Nat)
    (hf : xs.length < fuel) :
    nullIter s.next h fuel start = some q ∧ nullIter s.next h fuel (.from 0) = some [] ∧ nullIter s.next h fuel (.after 0) = some [] :=
  Slist.iteration ⟨hc.1, chain_forward hc.2⟩ hs fuel hf

theorem deleting {s : Heap} {h : Addr} {xs p q : List Addr} {W : List (List Addr)} {start : Start} {keep : Addr → Bool} {f : Heap → Addr → Option Heap}
    (hb : ∀ s A x B, World s ((h :: A ++ x :: B) :: W) → ∃ s', f s x = some s' ∧ World s' ((h :: A ++ B) :: W))
    (hw : World s ((h :: xs) :: W)) (hs : Splits xs start p q) (fuel : Nat) (hf : xs.length < fuel) (tmp : Addr) :
    ∃ s', nullIterSafe Heap.next h (only keep f) fuel s tmp start = some (q, s') ∧ World s' ((h :: (p ++ q.filter keep)) :: W) := by
  have hpq := Dlist.splits_append hs
  obtain ⟨s', h1, h2⟩ := Slist.nullIterSafe_inv (nx := Heap.next) (h := h) (keep := keep) (body := only keep f)
    (fun s A B => World s ((h :: (A ++ B)) :: W)) (fun s A B hi => chain_forward (hi.chain (h :: (A ++ B)) (by simp)).2)
    (by
      intro s A x B hi
      cases hk : keep x
      · obtain ⟨s', e1, e2⟩ := hb s A x B hi
        exact ⟨s', by simpa [only, hk] using e1, by simpa using e2⟩
      · exact ⟨s, by simp [only, hk], by simpa using hi⟩) hs (by rw [hpq]; exact hw) fuel hf tmp
  exact ⟨s', h1, by simpa using h2⟩

/-- C92. The `_safe` macros are safe against `bfdev_hlist_del` and `bfdev_hlist_del_init` of the cursor: whatever nodes the body deletes, the loop
meets exactly the nodes from its start to the end, each once, in order, no step follows NULL, whatever the temporary held before, and
afterwards the chain holds the nodes before the start followed by those that were kept; every other chain in memory is untouched. -/
theorem deleting_iteration {s : Heap} {h : Addr} {xs p q : List Addr} {W : List (List Addr)} {start : Start} (keep : Addr → Bool)
    (hw : World s ((h :: xs) :: W)) (hs : Splits xs start p q) (fuel : Nat) (hf : xs.length < fuel) (tmp : Addr) :
    ∀ f, f = del ∨ f = delInit →
      (∃ s', nullIterSafe Heap.next h (only keep f) fuel s tmp start = some (q, s') ∧ World s' ((h :: (p ++ q.filter keep)) :: W)) ∧
      (∃ s', entrySafe h (only keep f) fuel s = some (xs, s') ∧ World s' ((h :: xs.filter keep) :: W)) := by
  intro f hf'
  have hb : ∀ s A x B, World s ((h :: A ++ x :: B) :: W) → ∃ s', f s x = some s' ∧ World s' ((h :: A ++ B) :: W) := by
    intro s A x B hi
    rcases hf' with rfl | rfl
    · exact step_sound_partial (op := .del x) hi Step.del
    · exact step_sound_partial (op := .delInit x) hi Step.delInit
  refine ⟨deleting hb hw hs fuel hf tmp, ?_⟩
  have := deleting (keep := keep) hb hw (Splits.all) fuel hf tmp
  simpa only [entrySafe, entrySafeLoop_eq (only keep f) fuel s (s.next h) (if s.next h = 0 then tmp else s.next (s.next h)) (fun h => by rw [if_neg h]),
    nullIterSafe, List.nil_append] using this

/-- Three nodes under head 9. -/
def exHeap : Heap := headAdd (headAdd (headAdd (headInit ⟨fun _ => 0, fun _ => 0⟩ 9) 9 3) 9 2) 9 1

/-- The hypotheses hold there, and the loops do what the theorems say. -/
example : World exHeap [[9, 1, 2, 3]] ∧ Splits [1, 2, 3] (.from 2) [1] [2, 3] ∧ nullIter exHeap.next 9 10 (.from 2) = some [2, 3] ∧
    (nullIterSafe Heap.next 9 (only (· == 2) del) 10 exHeap 77 .all).map (fun r => (r.1, forEach r.2 9 10)) = some ([1, 2, 3], some [2]) ∧
    (entrySafe 9 (only (· == 3) delInit) 10 exHeap).map (fun r => (r.1, forEach r.2 9 10)) = some ([1, 2, 3], some [3]) := by
  refine ⟨⟨by simp [exHeap, IsChain, Chain, headAdd, headInit, Heap.setNext, Heap.setPrev, Dlist.upd], by decide⟩,
    Splits.from (p := [1]) (x := 2) (q := [3]), by decide, by decide, by decide⟩

end Bfdev.Hlist

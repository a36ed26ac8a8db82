import Verif.Slist.Props
import Verif.Dlist.Iter
/-!
C92, null-terminated lists: every iteration macro of `include/bfdev/slist.h`. The macros of `include/bfdev/hlist.h` have the same text
over another node type, so the loops are written for any memory `σ` with a forward link `nx` and instantiated in
`Verif/Hlist/Iter.lean` as well. As for circular lists, the `_entry` forms keep the address of the containing structure, and
`bfdev_container_of_safe` (container.h:28-31) maps NULL to NULL, so they are the same loops.
-/
namespace Bfdev.Slist
open Bfdev.Dlist (Start Splits)

/-- `for (; pos; pos = pos->next)`, slist.h:193-194 and hlist.h:301-302, collecting the cursors. -/
def nullWalk (nx : Addr → Addr) : Nat → Addr → Option (List Addr)
  | 0, _ => none
  | fuel + 1, pos => if pos = 0 then some [] else (nullWalk nx fuel (nx pos)).map (pos :: ·)

/-- `for_each`, `for_each_from`, `for_each_continue`: slist.h:186-202, 238-257; hlist.h:294-310, 346-365. -/
def nullIter (nx : Addr → Addr) (head : Addr) (fuel : Nat) : Start → Option (List Addr)
  | .all => nullWalk nx fuel (nx head)
  | .from x => nullWalk nx fuel x
  | .after x => nullWalk nx fuel (if x = 0 then x else nx x)

/-- The loop of the `_safe` macros: the step is `(pos = tmp) && (tmp = pos->next)`, slist.h:210-230, 266-290; hlist.h:318-338, 385-398. The body
may fail (follow NULL). -/
def nullSafe {σ : Type} (nx : σ → Addr → Addr) (body : σ → Addr → Option σ) : Nat → σ → Addr → Addr → Option (List Addr × σ)
  | 0, _, _, _ => none
  | fuel + 1, s, pos, tmp =>
    if pos = 0 then some ([], s)
    else (body s pos).bind fun s =>
      let pos' := tmp
      let tmp := if pos' = 0 then tmp else nx s pos'
      (nullSafe nx body fuel s pos' tmp).map fun r => (pos :: r.1, r.2)

/-- The initial part of the `_safe` macros: `tmp` is whatever it was before when there is no first node. Same lines. -/
def nullIterSafe {σ : Type} (nx : σ → Addr → Addr) (head : Addr) (body : σ → Addr → Option σ) (fuel : Nat) (s : σ) (tmp : Addr) :
    Start → Option (List Addr × σ)
  | .all => let pos := nx s head; nullSafe nx body fuel s pos (if pos = 0 then tmp else nx s pos)
  | .from x => nullSafe nx body fuel s x (if x = 0 then tmp else nx s x)
  | .after x => let pos := if x = 0 then x else nx s x; nullSafe nx body fuel s pos (if pos = 0 then tmp else nx s pos)

theorem chain_step {f : Heap} : ∀ {p q : List Addr} {a x : Addr}, Chain f a (p ++ x :: q) → f x = q.headD 0
  | [], [], _, _, h => h.2.2
  | [], _ :: _, _, _, h => h.2.2.1
  | _ :: _, _, _, _, h => chain_step h.2.2

theorem chain_first {f : Heap} {q : List Addr} {a : Addr} (h : Chain f a q) : f a = q.headD 0 := by
  cases q with
  | nil => exact h
  | cons _ _ => exact h.1

theorem nullWalk_ok {f : Heap} {a : Addr} : ∀ {q p : List Addr} {fuel : Nat}, Chain f a (p ++ q) → q.length < fuel → nullWalk f fuel (q.headD 0) = some q
  | [], _, fuel + 1, _, _ => by simp [nullWalk]
  | x :: q, p, fuel + 1, r, hf => by
    have hx := (chain_tail r).1
    have e := chain_step r
    have ih := nullWalk_ok (q := q) (p := p ++ [x]) (fuel := fuel) (by simpa using r) (by simpa using hf)
    simp only [nullWalk, List.headD_cons, if_neg hx, e, ih, Option.map_some]

theorem nullIter_ok {f : Heap} {h : Addr} {xs p q : List Addr} {start : Start} (hc : Chain f h xs) (hs : Splits xs start p q) (fuel : Nat)
    (hf : xs.length < fuel) : nullIter f h fuel start = some q := by
  cases hs with
  | all =>
    simp only [nullIter, chain_first hc]
    exact nullWalk_ok (p := []) hc hf
  | @«from» p x q => exact nullWalk_ok (q := x :: q) hc (by simp at hf ⊢; omega)
  | @after p x q =>
    simp only [nullIter, if_neg (chain_tail hc).1, chain_step hc]
    exact nullWalk_ok (p := p ++ [x]) (by simpa using hc) (by simp at hf; omega)

/-- The loop of the `_safe` macros under any invariant. `Inv s p q`: memory `s` holds the list `p ++ q`, of which the loop has still to meet `q`. -/
theorem nullSafe_inv {σ : Type} {nx : σ → Addr → Addr} {h : Addr} {body : σ → Addr → Option σ} {keep : Addr → Bool}
    (Inv : σ → List Addr → List Addr → Prop) (hring : ∀ s p q, Inv s p q → Chain (nx s) h (p ++ q))
    (hbody : ∀ s p x q, Inv s p (x :: q) → ∃ s', body s x = some s' ∧ Inv s' (p ++ (if keep x then [x] else [])) q) :
    ∀ (q p : List Addr) (s : σ) (fuel : Nat) (tmp : Addr), Inv s p q → q.length < fuel → (q ≠ [] → tmp = nx s (q.headD 0)) →
      ∃ s', nullSafe nx body fuel s (q.headD 0) tmp = some (q, s') ∧ Inv s' (p ++ q.filter keep) []
  | [], p, s, fuel + 1, _, hi, _, _ => ⟨s, by simp [nullSafe], by simpa using hi⟩
  | x :: q, p, s, fuel + 1, tmp, hi, hf, ht => by
    have hc := hring _ _ _ hi
    have hx := (chain_tail hc).1
    have e : tmp = q.headD 0 := (ht (by simp)).trans (chain_step hc)
    obtain ⟨s1, b1, b2⟩ := hbody _ _ _ _ hi
    obtain ⟨s', h1, h2⟩ := nullSafe_inv Inv hring hbody q (p ++ (if keep x then [x] else [])) s1 fuel (if tmp = 0 then tmp else nx s1 tmp) b2 (by simpa using hf) (by
      intro hq
      have : tmp ≠ 0 := by
        cases q with
        | nil => exact absurd rfl hq
        | cons y q => rw [e]; exact (chain_tail (l := p ++ [x]) (by simpa using hc)).1
      rw [if_neg this, e])
    rw [← e] at h1
    refine ⟨s', ?_, ?_⟩
    · simp only [nullSafe, List.headD_cons, if_neg hx, b1, Option.bind_some, h1, Option.map_some]
    · cases hk : keep x <;> simp [hk] at h2 ⊢ <;> exact h2

theorem nullIterSafe_inv {σ : Type} {nx : σ → Addr → Addr} {h : Addr} {body : σ → Addr → Option σ} {keep : Addr → Bool}
    (Inv : σ → List Addr → List Addr → Prop) (hring : ∀ s p q, Inv s p q → Chain (nx s) h (p ++ q))
    (hbody : ∀ s p x q, Inv s p (x :: q) → ∃ s', body s x = some s' ∧ Inv s' (p ++ (if keep x then [x] else [])) q)
    {s : σ} {ys p q : List Addr} {start : Start} (hs : Splits ys start p q) (hi : Inv s p q) (fuel : Nat) (hf : ys.length < fuel) (tmp : Addr) :
    ∃ s', nullIterSafe nx h body fuel s tmp start = some (q, s') ∧ Inv s' (p ++ q.filter keep) [] := by
  have hc := hring _ _ _ hi
  have hne : ∀ {q p : List Addr}, Chain (nx s) h (p ++ q) → q ≠ [] → q.headD 0 ≠ 0 := by
    intro q p hc hq
    cases q with
    | nil => exact absurd rfl hq
    | cons y q => exact (chain_tail hc).1
  cases hs with
  | all =>
    simp only [nullIterSafe]
    rw [chain_first (q := ys) hc]
    exact nullSafe_inv Inv hring hbody ys [] s fuel _ hi hf (fun hq => by rw [if_neg (hne hc hq)])
  | @«from» p x q =>
    simp only [nullIterSafe]
    exact nullSafe_inv Inv hring hbody (x :: q) p s fuel _ hi (by simp at hf ⊢; omega) (fun hq => by rw [if_neg (chain_tail hc).1]; rfl)
  | @after p x q =>
    simp only [nullIterSafe]
    have hc' : Chain (nx s) h (p ++ x :: q) := by simpa using hc
    rw [if_neg (chain_tail hc').1, chain_step hc']
    exact nullSafe_inv Inv hring hbody q (p ++ [x]) s fuel _ hi (by simp at hf; omega) (fun hq => by rw [if_neg (hne hc hq)])

/-- A body that leaves some nodes alone and applies `f` to the others. -/
def only {σ : Type} (keep : Addr → Bool) (f : σ → Addr → Option σ) (s : σ) (x : Addr) : Option σ := if keep x then some s else f s x

/-- C92. On a well formed list, every plain iteration macro terminates and meets exactly the nodes from its start to the end, each once, in order;
a NULL cursor gives an empty iteration. -/
theorem iteration {s : Heap} {h : Addr} {xs p q : List Addr} {start : Start} (hc : IsList s (h :: xs)) (hs : Splits xs start p q) (fuel : Nat)
    (hf : xs.length < fuel) :
    nullIter s h fuel start = some q ∧ nullIter s h fuel (.from 0) = some [] ∧ nullIter s h fuel (.after 0) = some [] := by
  obtain ⟨f, rfl⟩ : ∃ f, fuel = f + 1 := ⟨fuel - 1, by omega⟩
  exact ⟨nullIter_ok hc.2 hs _ hf, by simp [nullIter, nullWalk], by simp [nullIter, nullWalk]⟩

/-- C92. The `_safe` macros are safe against `bfdev_slist_del` of the cursor: whatever nodes the body deletes, the loop meets exactly the nodes
from its start to the end, each once, in order, no step follows NULL, whatever the temporary held before, and afterwards the list holds the
nodes before the start followed by those that were kept; every other list in memory is untouched. -/
theorem deleting_iteration {s : Heap} {h : Addr} {xs p q : List Addr} {W : List (List Addr)} {start : Start} (keep : Addr → Bool)
    (hw : World s ((h :: xs) :: W)) (hs : Splits xs start p q) (fuel : Nat) (hf : ((h :: xs) :: W).flatten.length ≤ fuel) (tmp : Addr) :
    ∃ s', nullIterSafe id h (only keep fun s x => del s h x fuel) fuel s tmp start = some (q, s') ∧ World s' ((h :: (p ++ q.filter keep)) :: W) := by
  have hpq := Dlist.splits_append hs
  obtain ⟨s', h1, h2⟩ := nullIterSafe_inv (nx := id) (h := h) (keep := keep) (body := only keep fun s x => del s h x fuel)
    (fun s A B => World s ((h :: (A ++ B)) :: W) ∧ ((h :: (A ++ B)) :: W).flatten.length ≤ fuel)
    (fun s A B hi => (hi.1.list (h :: (A ++ B)) (by simp)).2)
    (by
      rintro s A x B ⟨hi, hl⟩
      cases hk : keep x
      · obtain ⟨s', e1, e2⟩ := step_sound (op := .del h x) hl hi (Step.del (h := h) (l := A) (x := x) (r := B))
        refine ⟨s', by simpa [only, hk, Op.run] using e1, by simpa using e2, ?_⟩
        simp at hl ⊢; omega
      · exact ⟨s, by simp [only, hk], by simpa using hi, by simpa using hl⟩) hs ⟨by rw [hpq]; exact hw, by rw [hpq]; exact hf⟩ fuel
    (by simp at hf; omega) tmp
  exact ⟨s', h1, by simpa using h2.1⟩

/-- Three nodes under head 9. -/
def exHeap : Heap := add (add (add (headInit (fun _ => 0) 9) 9 3) 9 2) 9 1

/-- The hypotheses hold there, and the loops do what the theorems say. -/
example : World exHeap [[9, 1, 2, 3]] ∧ Splits [1, 2, 3] (.after 1) [1] [2, 3] ∧ nullIter exHeap 9 10 (.after 1) = some [2, 3] ∧
    (nullIterSafe id 9 (only (· == 2) fun s x => del s 9 x 10) 10 exHeap 77 .all).map (fun r => (r.1, forEach r.2 9 10)) = some ([1, 2, 3], some [2]) := by
  refine ⟨⟨by simp [exHeap, IsList, Chain, add, headInit, upd], by decide⟩, Splits.after (p := []) (x := 1) (q := [2, 3]), by decide, by decide⟩

end Bfdev.Slist

import Verif.Respool.Spec
import Verif.Dlist.Props
/-!
C37: resource pools.
-/
namespace Bfdev.Respool
open Dlist (Addr Ring Links ring_add ring_del ring_rotate ring_headInit)

theorem findFrom_spec {h : Dlist.Heap} {pool : Addr} (miss : Addr → Int) : ∀ {xs : List Addr} {a : Addr}, Links h a xs pool →
    pool ∉ xs → ∀ fuel, xs.length < fuel → findFrom h pool miss fuel (h.next a) = some (xs.find? fun x => miss x = 0) := by
  intro xs
  induction xs with
  | nil =>
    intro a hl _ fuel hf
    obtain ⟨f, rfl⟩ : ∃ f, fuel = f + 1 := ⟨fuel - 1, by simp at hf; omega⟩
    simp [findFrom, hl.1]
  | cons x xs ih =>
    intro a hl hn fuel hf
    obtain ⟨f, rfl⟩ : ∃ f, fuel = f + 1 := ⟨fuel - 1, by simp at hf; omega⟩
    simp only [List.mem_cons, not_or] at hn
    have hne : ¬ x = pool := fun e => hn.1 e.symm
    rw [hl.1]
    by_cases hm : miss x = 0
    · simp [findFrom, hne, hm]
    · rw [findFrom, if_neg hne, if_neg hm, ih hl.2.2 hn.2 f (by simp at hf; omega)]
      simp [hm]

theorem holds_del {head x : Addr} {s : State} {a : Abs} (h : Holds head s a) (hx : x ∈ a.pool) :
    Ring (Dlist.del s.heap x) (head :: a.pool.erase x) ∧ (head :: a.pool.erase x).Nodup := by
  obtain ⟨l, r, e⟩ := List.append_of_mem hx
  have hnd := h.nodup
  have hr := h.ring
  rw [e] at hnd hr
  have hxl : x ∉ l := by grind
  have he : (l ++ x :: r).erase x = l ++ r := by rw [List.erase_append_right _ hxl]; simp
  rw [e, he]
  have h1 : Ring s.heap (x :: (r ++ head :: l)) := (ring_rotate _ (head :: l) x r).1 hr
  obtain ⟨h2, -⟩ := ring_del h1 (by grind) (by simp)
  refine ⟨?_, by grind⟩
  simpa using (ring_rotate _ r head l).1 h2

theorem found_mem {a : Abs} {miss : Addr → Int} {x : Addr} (h : found a miss = some x) : x ∈ a.pool := List.mem_of_find?_eq_some h

theorem op_sound {head : Addr} {s : State} {a : Abs} (h : Holds head s a) (op : Op) (ok : op.Ok head a) (fuel : Nat)
    (hf : a.pool.length < fuel) : ∃ s', op.run head fuel s = some (op.answer a, s') ∧ Holds head s' (op.spec a) := by
  have hfind : ∀ miss, find s head miss fuel = some (found a miss) := fun miss =>
    findFrom_spec miss h.ring (by have := h.nodup; grind) fuel hf
  cases op with
  | insert x =>
    obtain ⟨hr, -⟩ := ring_add (n := x) h.ring h.nodup (by have := ok.1; have := ok.2; grind)
    exact ⟨_, rfl, hr, by have := h.nodup; have := ok.1; have := ok.2; show (head :: x :: a.pool).Nodup; grind, h.log⟩
  | remove x =>
    obtain ⟨h1, h2⟩ := holds_del h ok
    exact ⟨_, rfl, h1, h2, h.log⟩
  | release x =>
    obtain ⟨h1, h2⟩ := holds_del h ok
    exact ⟨_, rfl, h1, h2, by show s.log ++ [x] = a.released ++ [x]; rw [h.log]⟩
  | findRemove miss =>
    simp only [Op.run, findRemove, hfind, Op.answer, Op.spec]
    cases e : found a miss with
    | none => exact ⟨s, rfl, h⟩
    | some x =>
      obtain ⟨h1, h2⟩ := holds_del h (found_mem e)
      exact ⟨_, rfl, h1, h2, h.log⟩
  | findRelease miss =>
    simp only [Op.run, findRelease, hfind, Op.answer, Op.spec]
    cases e : found a miss with
    | none => exact ⟨s, rfl, h⟩
    | some x =>
      obtain ⟨h1, h2⟩ := holds_del h (found_mem e)
      exact ⟨_, rfl, h1, h2, by show s.log ++ [x] = a.released ++ [x]; rw [h.log]⟩

theorem spec_length (a : Abs) (op : Op) : (op.spec a).pool.length ≤ a.pool.length + 1 := by
  have he : ∀ x, (a.pool.erase x).length ≤ a.pool.length + 1 := fun x => by have := @List.length_erase_le _ _ x a.pool; omega
  cases op with
  | insert x => simp [Op.spec]
  | remove x => exact he x
  | release x => exact he x
  | findRemove miss => simp only [Op.spec]; cases found a miss <;> simp [he]
  | findRelease miss => simp only [Op.spec]; cases found a miss <;> simp [he]

/-- C37: whatever is inserted, removed, released, searched and removed, or searched and released, in any order, the pool is the list
of the resources inserted and not yet taken out, newest first; every search returns the newest match; and the callbacks made are
exactly those of the released resources, once each, in order. -/
theorem pool_histories {head : Addr} {s : State} {a : Abs} (h : Holds head s a) (ops : List Op) (ok : OkAll head a ops) (fuel : Nat)
    (hf : a.pool.length + ops.length < fuel) :
    ∃ s', runAll head fuel s ops = some (answers a ops, s') ∧ Holds head s' (specAll a ops) := by
  induction ops generalizing s a with
  | nil => exact ⟨s, rfl, h⟩
  | cons op ops ih =>
    simp only [List.length_cons] at hf
    obtain ⟨s1, e1, h1⟩ := op_sound h op ok.1 fuel (by omega)
    have := spec_length a op
    obtain ⟨s2, e2, h2⟩ := ih h1 ok.2 (by omega)
    refine ⟨s2, ?_, h2⟩
    simp only [runAll, e1, e2, answers]

/-- C37: a new pool is empty. -/
theorem pool_init (s : State) (head : Addr) : Holds head (init s head) ⟨[], s.log⟩ ∧ checkEmpty (init s head) head = true := by
  obtain ⟨h1, -⟩ := ring_headInit s.heap head
  exact ⟨⟨h1, by simp, rfl⟩, by simpa [checkEmpty, Dlist.checkEmpty, init] using h1.1⟩

/-- C37: the emptiness test answers whether the pool holds nothing. -/
theorem pool_empty {head : Addr} {s : State} {a : Abs} (h : Holds head s a) : checkEmpty s head = true ↔ a.pool = [] :=
  (Dlist.checks h.ring h.nodup).1

/-- C37: a search returns the newest match and changes nothing. -/
theorem pool_find {head : Addr} {s : State} {a : Abs} (h : Holds head s a) (miss : Addr → Int) (fuel : Nat)
    (hf : a.pool.length < fuel) : find s head miss fuel = some (a.pool.find? fun x => miss x = 0) :=
  findFrom_spec miss h.ring (by have := h.nodup; grind) fuel hf

theorem releaseFrom_spec {pool : Addr} : ∀ {xs : List Addr} {a : Addr} {s : State}, Links s.heap a xs pool → pool ∉ xs → ∀ fuel,
    xs.length < fuel → releaseFrom pool fuel s (s.heap.next a) (s.heap.next (s.heap.next a)) =
      some { s with log := s.log ++ xs } := by
  intro xs
  induction xs with
  | nil =>
    intro a s hl _ fuel hf
    obtain ⟨f, rfl⟩ : ∃ f, fuel = f + 1 := ⟨fuel - 1, by simp at hf; omega⟩
    simp [releaseFrom, hl.1]
  | cons x xs ih =>
    intro a s hl hn fuel hf
    obtain ⟨f, rfl⟩ : ∃ f, fuel = f + 1 := ⟨fuel - 1, by simp at hf; omega⟩
    simp only [List.mem_cons, not_or] at hn
    have hne : ¬ x = pool := fun e => hn.1 e.symm
    rw [hl.1, releaseFrom, if_neg hne]
    have := ih (s := callRelease s x) hl.2.2 hn.2 f (by simp at hf; omega)
    simp only [callRelease] at this ⊢
    rw [this]
    simp

/-- C37, the part that holds for releasing everything: every callback is made exactly once, newest resource first. What is missing:
the pool is not emptied, see `release_all_violated`. -/
theorem release_all_partial {head : Addr} {s : State} {a : Abs} (h : Holds head s a) (fuel : Nat) (hf : a.pool.length < fuel) :
    ∃ s', releaseAll s head fuel = some s' ∧ s'.log = s.log ++ a.pool ∧
      ∀ x, s'.log.count x = s.log.count x + if x ∈ a.pool then 1 else 0 := by
  refine ⟨_, releaseFrom_spec h.ring (by have := h.nodup; grind) fuel hf, rfl, fun x => ?_⟩
  have hnd : a.pool.Nodup := (List.nodup_cons.1 h.nodup).2
  show (s.log ++ a.pool).count x = _
  rw [List.count_append]
  by_cases hx : x ∈ a.pool
  · rw [if_pos hx]
    have h1 := List.nodup_iff_count.1 hnd x
    have h2 := List.count_pos_iff.2 hx
    omega
  · rw [if_neg hx, List.count_eq_zero.2 hx]

/-- C37 fails for releasing everything: no node is unlinked, so a pool that held something still holds all of it, and releasing
everything again calls every callback a second time. -/
theorem release_all_violated {head : Addr} {s : State} {a : Abs} (h : Holds head s a) (hne : a.pool ≠ []) (fuel : Nat)
    (hf : a.pool.length < fuel) : ∃ s' s'', releaseAll s head fuel = some s' ∧ checkEmpty s' head = false ∧
      Holds head s' { a with released := a.released ++ a.pool } ∧
      releaseAll s' head fuel = some s'' ∧ s''.log = a.released ++ a.pool ++ a.pool := by
  have hp : head ∉ a.pool := by have := h.nodup; grind
  refine ⟨_, _, releaseFrom_spec h.ring hp fuel hf, ?_, ?_, releaseFrom_spec (s := { s with log := s.log ++ a.pool }) h.ring hp fuel hf, ?_⟩
  · have := (Dlist.checks h.ring h.nodup).1
    simp only [checkEmpty]
    rw [Bool.eq_false_iff]
    exact fun e => hne (this.1 e)
  · exact ⟨h.ring, h.nodup, by simp [h.log]⟩
  · simp [h.log]

/-! A pool with two resources: the hypotheses can be met. -/
private def zero : State := ⟨⟨fun x => x, fun x => x⟩, []⟩

example : ∃ s', runAll 1 9 (init zero 1) [.insert 2, .insert 3, .findRelease (fun x => if x = 2 then 0 else 1), .release 3] =
    some ([none, none, some 2, none], s') ∧ Holds 1 s' ⟨[], [2, 3]⟩ :=
  pool_histories (pool_init zero 1).1 [.insert 2, .insert 3, .findRelease (fun x => if x = 2 then 0 else 1), .release 3]
    (by simp [OkAll, Op.Ok, Op.spec, found]) 9 (by decide)

end Bfdev.Respool

import Verif.Array.Mem
import Verif.Array.Model
/-!
The arrays of C117, which know their blocks, and the arrays of C08, which know their contents, do the same.
-/
namespace Bfdev.Array.Mem
open Life (World free malloc)

/-- The same array without and with contents. -/
def Sees (o : Obj) (a : Arr) : Prop := o.cells = a.cells ∧ o.capacity = a.capacity ∧ o.index = a.index ∧ (o.data = 0 ↔ a.data = none)

/-- What the world answers to the next request. -/
def answer (w : World) (junk : Nat → Byte) : Grant := if w.fail w.calls then none else some junk

/-- Every call of C117 that has a result has one in C08, and the arrays afterwards are the same: their lengths, capacities and whether they have a
block. The world must hand out addresses that are not 0, as `Life.Ok` says. -/
theorem apply_agrees {w w' : World} (hw : 0 < w.next) {o o' : Obj} {a : Arr} {ok : Bool} (h : Sees o a) (junk : Nat → Byte) (n : Nat)
    (e : apply w o n = some (w', o', ok)) : ∃ a', Array.apply a n (answer w junk) = some (a', ok) ∧ Sees o' a' := by
  obtain ⟨h1, h2, h3, h4⟩ := h
  unfold Mem.apply at e
  unfold Array.apply
  rw [← h2]
  by_cases hc : n ≤ o.capacity
  · rw [if_pos hc] at e ⊢
    cases e
    exact ⟨a, rfl, h1, h2, h3, h4⟩
  · rw [if_neg hc] at e ⊢
    have hr : Array.reqsize a n = reqsize o n := by unfold Array.reqsize reqsize; rw [h1]
    rw [hr]
    cases hq : reqsize o n with
    | none => rw [hq] at e; cases e
    | some size =>
      rw [hq] at e
      simp only [Option.bind_eq_bind, Option.bind_some] at e ⊢
      have hw64 : w64 (n * a.cells) = n * o.cells % 2 ^ 64 := by rw [h1]; rfl
      rw [hw64]
      by_cases hs : n * o.cells % 2 ^ 64 > size
      · rw [if_pos hs] at e; cases e
      · rw [if_neg hs] at e ⊢
        unfold setSize at e
        unfold arrResize
        cases hm : realloc w o.alloc o.data size with
        | none => rw [hm] at e; cases e
        | some r =>
          obtain ⟨w1, d⟩ := r
          rw [hm] at e
          simp only [Option.bind_eq_bind, Option.bind_some] at e
          by_cases h0 : o.data = 0
          · have ha : a.data = none := h4.1 h0
            rw [Mem.realloc, if_pos h0] at hm
            unfold malloc at hm
            rw [ha]
            simp only [Array.realloc]
            by_cases hz : size = 0
            · rw [if_pos hz] at hm ⊢
              cases hm
              rw [if_pos rfl] at e
              cases e
              exact ⟨a, rfl, h1, h2, h3, h4⟩
            · rw [if_neg hz] at hm ⊢
              by_cases hf : w.fail w.calls = true
              · rw [if_pos hf] at hm
                cases hm
                rw [if_pos rfl] at e
                cases e
                simp only [answer, if_pos hf]
                exact ⟨a, rfl, h1, h2, h3, h4⟩
              · rw [if_neg hf] at hm
                cases hm
                rw [if_neg (by omega)] at e
                simp only [answer, if_neg hf]
                rw [← h1]
                by_cases hcz : o.cells = 0
                · rw [if_pos hcz] at e; cases e
                · rw [if_neg hcz] at e ⊢
                  cases e
                  exact ⟨_, rfl, rfl, rfl, h3, by simp only [reduceCtorEq, iff_false]; omega⟩
          · obtain ⟨m, ha⟩ : ∃ m, a.data = some m := by
              cases hd : a.data with
              | none => exact absurd (h4.2 hd) h0
              | some m => exact ⟨m, rfl⟩
            rw [Mem.realloc, if_neg h0] at hm
            rw [ha]
            simp only [Array.realloc]
            by_cases hz : size = 0
            · rw [if_pos hz] at hm ⊢
              have hd : d = 0 := by
                cases hfr : free w o.alloc o.data with
                | none => rw [hfr] at hm; cases hm
                | some x => rw [hfr] at hm; cases hm; rfl
              rw [if_pos hd] at e
              cases e
              exact ⟨_, rfl, h1, h2, h3, by simp only [reduceCtorEq, iff_false]; exact h0⟩
            · rw [if_neg hz] at hm ⊢
              cases hfr : free w o.alloc o.data with
              | none => rw [hfr] at hm; cases hm
              | some x =>
                rw [hfr, Option.map_some] at hm
                have hx := free_next hfr
                by_cases hf : w.fail w.calls = true
                · rw [if_pos hf] at hm
                  cases hm
                  rw [if_pos rfl] at e
                  cases e
                  simp only [answer, if_pos hf]
                  exact ⟨a, rfl, h1, h2, h3, h4⟩
                · rw [if_neg hf] at hm
                  cases hm
                  rw [if_neg (by omega)] at e
                  simp only [answer, if_neg hf]
                  rw [← h1]
                  by_cases hcz : o.cells = 0
                  · rw [if_pos hcz] at e; cases e
                  · rw [if_neg hcz] at e ⊢
                    cases e
                    exact ⟨_, rfl, rfl, rfl, h3, by simp only [reduceCtorEq, iff_false]; omega⟩

theorem Sees.index {o : Obj} {a : Arr} (h : Sees o a) (n : Nat) : Sees { o with index := n } { a with index := n } := ⟨h.1, h.2.1, rfl, h.2.2.2⟩

/-- C117: pushing, resizing and reserving with the answer of the world as the memory granted. A refused push returns NULL. -/
theorem grow_agrees {w w' : World} (hw : 0 < w.next) {o o' : Obj} {a : Arr} {ok : Bool} (h : Sees o a) (junk : Nat → Byte) (n : Nat) :
    (push w o n = some (w', o', ok) → ∃ a' p, Array.push a n (answer w junk) = some (a', p) ∧ Sees o' a' ∧ (ok = false → p = none) ∧
      (ok = true → o'.data ≠ 0 → p.isSome)) ∧
    (resize w o n = some (w', o', ok) → ∃ a', Array.resize a n (answer w junk) = some (a', ok) ∧ Sees o' a') ∧
    (reserve w o n = some (w', o', ok) → ∃ a', Array.reserve a n (answer w junk) = some (a', ok) ∧ Sees o' a') := by
  refine ⟨fun e => ?_, fun e => ?_, fun e => ?_⟩
  · unfold push at e
    unfold Array.push
    rw [← h.2.2.1]
    simp only [W64]
    by_cases ho : o.index + n ≥ 2 ^ 64
    · rw [if_pos ho] at e
      rw [if_pos (by omega)]
      cases e
      exact ⟨a, none, rfl, h, fun _ => rfl, fun hf => by cases hf⟩
    · rw [if_neg ho] at e
      rw [if_neg (by omega)]
      cases ha : Mem.apply w o (o.index + n) with
      | none => rw [ha] at e; cases e
      | some r =>
        obtain ⟨w1, o1, ok1⟩ := r
        obtain ⟨a', e1, e2⟩ := apply_agrees hw h junk _ ha
        rw [ha] at e
        simp only [Option.bind_eq_bind, Option.bind_some] at e
        simp only [e1, Option.bind_eq_bind, Option.bind_some]
        cases ok1 with
        | false =>
          cases e
          exact ⟨a', none, rfl, e2, fun _ => rfl, fun hf => by cases hf⟩
        | true =>
          cases e
          refine ⟨_, _, rfl, e2.index _, (by intro hf; cases hf), fun _ hd => ?_⟩
          cases hd' : a'.data with
          | none => exact absurd (e2.2.2.2.2 hd') hd
          | some m => simp [ptr, hd']
  · unfold resize at e
    unfold Array.resize
    cases ha : Mem.apply w o n with
    | none => rw [ha] at e; cases e
    | some r =>
      obtain ⟨w1, o1, ok1⟩ := r
      obtain ⟨a', e1, e2⟩ := apply_agrees hw h junk _ ha
      rw [ha] at e
      simp only [Option.bind_eq_bind, Option.bind_some] at e
      simp only [e1, Option.bind_eq_bind, Option.bind_some]
      cases ok1 with
      | false => cases e; exact ⟨a', rfl, e2⟩
      | true => cases e; exact ⟨_, rfl, e2.index _⟩
  · unfold reserve at e
    unfold Array.reserve
    rw [← h.2.2.1]
    simp only [W64]
    by_cases ho : o.index + n ≥ 2 ^ 64
    · rw [if_pos ho] at e
      rw [if_pos (by omega)]
      cases e
      exact ⟨a, rfl, h⟩
    · rw [if_neg ho] at e
      rw [if_neg (by omega)]
      exact apply_agrees hw h junk _ e

/-- C117: popping, resetting, releasing and defining. -/
theorem shrink_agrees {o : Obj} {a : Arr} (h : Sees o a) (n : Nat) :
    Sees (pop o n) (Array.pop a n).1 ∧ Sees { o with index := 0 } (Array.reset a) ∧
    (∀ w w' o', release w o = some (w', o') → Sees o' (Array.release a)) ∧ ∀ alloc cells, Sees (init alloc cells) (Array.init cells) := by
  refine ⟨?_, h.index 0, fun w w' o' e => ?_, fun _ _ => ⟨rfl, rfl, rfl, by simp [init, Array.init]⟩⟩
  · unfold pop Array.pop peekAt
    rw [← h.2.2.1]
    by_cases hc : o.index < n
    · simp only [if_pos hc]; exact h
    · simp only [if_neg hc]; exact h.index _
  · unfold release at e
    cases hf : free w o.alloc o.data with
    | none => rw [hf] at e; cases e
    | some x =>
      rw [hf] at e
      cases e
      exact ⟨h.1, rfl, rfl, by simp [Array.release]⟩

/-- Whether popping succeeds is the same in both. -/
theorem pop_reports {o : Obj} {a : Arr} (h : Sees o a) (n : Nat) (hd : o.data ≠ 0) :
    decide (n ≤ o.index) = (Array.pop a n).2.isSome := by
  unfold Array.pop peekAt
  rw [← h.2.2.1]
  by_cases hc : o.index < n
  · simp only [if_pos hc]; simpa using hc
  · simp only [if_neg hc]
    cases hd' : a.data with
    | none => exact absurd (h.2.2.2.2 hd') hd
    | some m => simp [ptr, hd']; omega

/-- An array of four elements in a block at 5, popped to three. -/
example : Sees ⟨1, 8, 32, 4, 5⟩ ⟨8, 32, 4, some (List.replicate 256 0)⟩ ∧ (pop ⟨1, 8, 32, 4, 5⟩ 1).index = 3 := by
  exact ⟨⟨rfl, rfl, rfl, (by intro h; cases h), (by intro h; cases h)⟩, by decide⟩

end Bfdev.Array.Mem

import Verif.Registry.Spec
import Verif.Dlist.Props
/-!
Registries of algorithms.
-/
namespace Bfdev.Registry
open Bfdev.Dlist (Addr Heap World Ring Links Step step_sound)

theorem findLoop_ok (algos : Addr → Algo) {s : Heap} {h : Addr} (name : String) : ∀ {xs : List Addr} {a : Addr}, Links s a xs h → h ∉ xs → (∀ x ∈ xs, (algos x).name ≠ none) →
    ∀ fuel, xs.length < fuel → findLoop algos s h name fuel (s.next a) = some (xs.find? fun x => (algos x).name == some name) := by
  intro xs
  induction xs with
  | nil =>
    intro a hl _ _ fuel hf
    obtain ⟨f, rfl⟩ : ∃ f, fuel = f + 1 := ⟨fuel - 1, by simp at hf; omega⟩
    rw [findLoop, if_pos hl.1]; rfl
  | cons x xs ih =>
    intro a hl hh hn fuel hf
    obtain ⟨f, rfl⟩ : ∃ f, fuel = f + 1 := ⟨fuel - 1, by simp at hf; omega⟩
    obtain ⟨h1, h2, h3⟩ := hl
    have hx : x ≠ h := fun e => hh (e ▸ List.mem_cons_self ..)
    rw [h1, findLoop, if_neg hx, List.find?_cons]
    cases hnm : (algos x).name with
    | none => exact absurd hnm (hn x (List.mem_cons_self ..))
    | some n =>
      dsimp only
      by_cases e : n = name
      · rw [if_pos e, e]; simp
      · rw [if_neg e, show (some n == some name) = false by simpa using e]
        exact ih h3 (fun hm => hh (List.mem_cons_of_mem _ hm)) (fun y hy => hn y (List.mem_cons_of_mem _ hy)) f (by simp at hf; omega)

theorem existLoop_ok {s : Heap} {h : Addr} (algo : Addr) : ∀ {xs : List Addr} {a : Addr}, Links s a xs h → h ∉ xs →
    ∀ fuel, xs.length < fuel → existLoop s h algo fuel (s.next a) = some (decide (algo ∈ xs)) := by
  intro xs
  induction xs with
  | nil =>
    intro a hl _ fuel hf
    obtain ⟨f, rfl⟩ : ∃ f, fuel = f + 1 := ⟨fuel - 1, by simp at hf; omega⟩
    rw [existLoop, if_pos hl.1]; simp
  | cons x xs ih =>
    intro a hl hh fuel hf
    obtain ⟨f, rfl⟩ : ∃ f, fuel = f + 1 := ⟨fuel - 1, by simp at hf; omega⟩
    obtain ⟨h1, h2, h3⟩ := hl
    have hx : x ≠ h := fun e => hh (e ▸ List.mem_cons_self ..)
    rw [h1, existLoop, if_neg hx]
    by_cases e : x = algo
    · rw [if_pos e]; simp [e]
    · rw [if_neg e, ih h3 (fun hm => hh (List.mem_cons_of_mem _ hm)) f (by simp at hf; omega)]
      have : algo ≠ x := fun h => e h.symm
      simp [this]

/-- The registry is the list `L`, beside the rings `W`. -/
structure Holds (algos : Addr → Algo) (s : Heap) (head : Addr) (W : List (List Addr)) (L : List Addr) : Prop where
  world : World s ((head :: L) :: W)
  named : ∀ a ∈ L, (algos a).name ≠ none
  unique : L.Pairwise fun a b => (algos a).name ≠ (algos b).name

theorem Holds.ring {algos : Addr → Algo} {s : Heap} {head : Addr} {W : List (List Addr)} {L : List Addr} (h : Holds algos s head W L) :
    Links s head L head ∧ (head :: L).Nodup := by
  refine ⟨h.world.ring (head :: L) (List.mem_cons_self ..), ?_⟩
  have := h.world.nodup
  rw [List.flatten_cons, List.nodup_append] at this
  exact this.1

theorem complete_iff (a : Algo) : a.complete = true ↔ ¬ (a.name = none ∨ false ∈ a.callbacks) := by
  unfold Algo.complete
  cases h : a.name with
  | none => simp
  | some n =>
    simp only [Option.isSome_some, Bool.true_and, List.all_eq_true, id_eq, reduceCtorEq, false_or]
    constructor
    · intro hc hf
      exact absurd (hc false hf) (by simp)
    · intro hf x hx
      cases x with
      | true => rfl
      | false => exact absurd hx hf

theorem run_ok {algos : Addr → Algo} {s : Heap} {head : Addr} {W : List (List Addr)} {L : List Addr} (h : Holds algos s head W L) (op : Op)
    (hh : op.node ≠ head) (hW : op.node ∉ W.flatten) (fuel : Nat) (hf : L.length < fuel) :
    ∃ s', op.run algos fuel head s = some (s', (op.apply algos L).2) ∧ Holds algos s' head W (op.apply algos L).1 := by
  obtain ⟨hr, hnd⟩ := h.ring
  have hhL : head ∉ L := (List.nodup_cons.1 hnd).1
  cases op with
  | register a =>
    simp only [Op.node] at hh hW
    simp only [Op.run, register, Op.apply]
    by_cases hc : (algos a).complete = true
    · have hc' := (complete_iff _).1 hc
      rw [hc, if_neg hc']
      cases hn : (algos a).name with
      | none => exact absurd (Or.inl hn) hc'
      | some name =>
        simp only [Bool.not_true, Bool.false_eq_true, if_false]
        rw [find, findLoop_ok algos name hr hhL h.named fuel hf, Option.map_some]
        by_cases he : ∃ b ∈ L, (algos b).name = some name
        · rw [if_pos he]
          have : (L.find? fun x => (algos x).name == some name).isSome = true := by
            rw [List.find?_isSome]
            obtain ⟨b, h1, h2⟩ := he
            exact ⟨b, h1, by rw [h2]; simp⟩
          rw [if_pos this]
          exact ⟨s, rfl, h⟩
        · rw [if_neg he]
          have : ¬ (L.find? fun x => (algos x).name == some name).isSome = true := by
            rw [List.find?_isSome]
            rintro ⟨b, h1, h2⟩
            exact he ⟨b, h1, by simpa using h2⟩
          rw [if_neg this]
          have haL : a ∉ L := fun ha => he ⟨a, ha, hn⟩
          refine ⟨_, rfl, ?_, ?_, ?_⟩
          · have w := step_sound h.world (Step.add (l := []) (a := head) (r := L) (n := a) (by
              simp only [List.nil_append, List.flatten_cons, List.mem_append, List.mem_cons]
              rintro ((h1 | h1) | h1)
              · exact hh h1
              · exact haL h1
              · exact hW h1))
            exact w
          · intro b hb
            rcases List.mem_cons.1 hb with rfl | hb
            · rw [hn]; simp
            · exact h.named b hb
          · refine List.pairwise_cons.2 ⟨fun b hb e => he ⟨b, hb, by rw [← e, hn]⟩, h.unique⟩
    · have hc' : (algos a).name = none ∨ false ∈ (algos a).callbacks := Decidable.not_not.1 fun x => hc ((complete_iff _).2 x)
      rw [if_pos hc', show (algos a).complete = false by simpa using hc]
      exact ⟨s, rfl, h⟩
  | unregister a =>
    simp only [Op.node] at hh hW
    simp only [Op.run, unregister, Op.apply]
    rw [exist, existLoop_ok a hr hhL fuel hf, Option.map_some]
    by_cases ha : a ∈ L
    · rw [if_pos ha, decide_eq_true ha]
      simp only [Bool.not_true, Bool.false_eq_true, if_false]
      refine ⟨_, rfl, ?_, ?_, ?_⟩
      · obtain ⟨l, r, rfl⟩ := List.append_of_mem ha
        have w := step_sound h.world (Step.del (l := head :: l) (x := a) (r := r) (by simp))
        have e : (l ++ a :: r).filter (· ≠ a) = l ++ r := by
          have hnd' := (List.nodup_cons.1 hnd).2
          rw [List.nodup_append] at hnd'
          have id1 : ∀ (L : List Addr), a ∉ L → L.filter (· ≠ a) = L := by
            intro L hL
            refine List.filter_eq_self.2 (fun x hx => ?_)
            simp only [ne_eq, decide_eq_true_eq]
            exact fun hh => hL (hh ▸ hx)
          rw [List.filter_append, List.filter_cons, if_neg (by simp), id1 l, id1 r]
          · exact (List.nodup_cons.1 hnd'.2.1).1
          · intro hl
            exact hnd'.2.2 a hl a (List.mem_cons_self ..) rfl
        rw [e]
        exact w
      · intro b hb
        exact h.named b (List.mem_filter.1 hb).1
      · exact h.unique.filter _
    · rw [if_neg ha, decide_eq_false ha]
      exact ⟨s, rfl, h⟩

theorem apply_length (algos : Addr → Algo) (L : List Addr) (op : Op) : (op.apply algos L).1.length ≤ L.length + 1 := by
  cases op with
  | register a =>
    simp only [Op.apply]
    split
    · simp
    · split <;> simp
  | unregister a =>
    simp only [Op.apply]
    split
    · have := List.length_filter_le (fun x => decide (x ≠ a)) L
      simp only at this ⊢
      omega
    · simp

theorem runAll_ok {algos : Addr → Algo} {head : Addr} {W : List (List Addr)} (ops : List Op) : ∀ {s : Heap} {L : List Addr}, Holds algos s head W L →
    (∀ op ∈ ops, op.node ≠ head ∧ op.node ∉ W.flatten) → ∀ fuel, L.length + ops.length < fuel →
    ∃ s', runAll algos fuel head s ops = some (s', (applyAll algos L ops).2) ∧ Holds algos s' head W (applyAll algos L ops).1 := by
  induction ops with
  | nil => intro s L h _ fuel _; exact ⟨s, rfl, h⟩
  | cons op ops ih =>
    intro s L h hl fuel hf
    obtain ⟨l1, l2⟩ := hl op (List.mem_cons_self ..)
    simp only [List.length_cons] at hf
    obtain ⟨s1, e1, g1⟩ := run_ok h op l1 l2 fuel (by omega)
    have := apply_length algos L op
    obtain ⟨s2, e2, g2⟩ := ih g1 (fun o ho => hl o (List.mem_cons_of_mem _ ho)) fuel (by omega)
    exact ⟨s2, by rw [runAll, e1, Option.bind_some, e2]; rfl, g2⟩

theorem applyAll_length (algos : Addr → Algo) (ops : List Op) : ∀ L, (applyAll algos L ops).1.length ≤ L.length + ops.length := by
  induction ops with
  | nil => intro L; exact Nat.le_refl _
  | cons op ops ih =>
    intro L
    have h1 := ih (op.apply algos L).1
    have h2 := apply_length algos L op
    simp only [applyAll, List.length_cons]
    omega

/-- C87. From an empty registry, after any history of registrations and unregistrations of any algorithms, registered or not: every call ends and returns
what the specification says, the registry holds the specified algorithms, with different names, the other lists of memory are untouched, and creating by
name uses exactly the registered algorithm of that name, if there is one. -/
theorem registry_histories (algos : Addr → Algo) {s : Heap} {W : List (List Addr)} {head : Addr} (hw : World s ([head] :: W)) (ops : List Op)
    (hl : ∀ op ∈ ops, op.node ≠ head ∧ op.node ∉ W.flatten) (fuel : Nat) (hf : ops.length < fuel) :
    ∃ s', runAll algos fuel head s ops = some (s', (applyAll algos [] ops).2) ∧ World s' ((head :: (applyAll algos [] ops).1) :: W) ∧
      (applyAll algos [] ops).1.Pairwise (fun a b => (algos a).name ≠ (algos b).name) ∧
      ∀ name, ∃ r, find algos fuel s' head name = some r ∧ (∀ a, r = some a ↔ a ∈ (applyAll algos [] ops).1 ∧ (algos a).name = some name) ∧
        ∀ prepare, create algos fuel s' head name prepare = some (if ∃ a, r = some a ∧ prepare a = true then r else none) := by
  obtain ⟨s', e, g⟩ := runAll_ok ops (⟨hw, by simp, List.Pairwise.nil⟩ : Holds algos s head W []) hl fuel (by simpa using hf)
  refine ⟨s', e, g.world, g.unique, fun name => ?_⟩
  obtain ⟨hr, hnd⟩ := g.ring
  have hlen := applyAll_length algos ops []
  have e2 := findLoop_ok algos name hr (List.nodup_cons.1 hnd).1 g.named fuel (by simp at hlen; omega)
  refine ⟨_, e2, fun a => ⟨fun h => ?_, fun ⟨h1, h2⟩ => ?_⟩, fun prepare => ?_⟩
  · exact ⟨List.mem_of_find?_eq_some h, by simpa using List.find?_some h⟩
  · cases h3 : (applyAll algos [] ops).1.find? (fun x => (algos x).name == some name) with
    | none => exact absurd (List.find?_eq_none.1 h3 a h1) (by rw [h2]; simp)
    | some b =>
      have hb1 := List.mem_of_find?_eq_some h3
      have hb2 : (algos b).name = some name := by simpa using List.find?_some h3
      have : b = a := by
        refine Decidable.byContradiction fun hne => ?_
        obtain ⟨i, hi, rfl⟩ := List.getElem_of_mem hb1
        obtain ⟨j, hj, rfl⟩ := List.getElem_of_mem h1
        have hpw := List.pairwise_iff_getElem.1 g.unique
        rcases Nat.lt_trichotomy i j with h4 | h4 | h4
        · exact hpw i j hi hj h4 (by rw [hb2, h2])
        · subst h4; exact hne rfl
        · exact hpw j i hj hi h4 (by rw [hb2, h2])
      rw [this]
  · rw [create, find, e2, Option.map_some]
    cases (applyAll algos [] ops).1.find? (fun x => (algos x).name == some name) with
    | none => simp
    | some b =>
      cases hb : prepare b with
      | true => simp [hb]
      | false => simp [hb]

/-- Three algorithms; the third is incomplete, the second has the name of the first. -/
def demo : Addr → Algo := fun a => if a = 30 then ⟨some "bm", [true, false]⟩ else ⟨some "kmp", [true, true]⟩
example : runAll demo 9 1 (Dlist.headInit ⟨fun _ => 0, fun _ => 0⟩ 1) [.register 10, .register 20, .register 30, .unregister 20, .register 10, .unregister 10, .register 20] =
    ((runAll demo 9 1 (Dlist.headInit ⟨fun _ => 0, fun _ => 0⟩ 1) [.register 10, .register 20, .register 30, .unregister 20, .register 10, .unregister 10, .register 20]).map
      fun r => (r.1, [0, -114, -22, -2, -114, 0, 0])) := rfl
example : World (Dlist.headInit ⟨fun _ => 0, fun _ => 0⟩ 1) [[1]] ∧ ∀ op ∈ [Op.register 10, .register 20, .unregister 10], op.node ≠ 1 ∧ op.node ∉ ([] : List (List Addr)).flatten :=
  ⟨⟨by simp [Ring, Links, Dlist.headInit, Heap.setNext, Heap.setPrev, Dlist.upd], by simp⟩, by simp [Op.node]⟩

end Bfdev.Registry

import Verif.Radix.Props
/-!
C122: a radix tree is no higher and has no more nodes than its elements need, as long as memory was never refused.
-/
namespace Bfdev.Radix.Height
open Radix

/-- A root above the leaves has a child besides the first. -/
def Compact : Root → Prop
  | ⟨_ + 1, some b, _, _⟩ => 1 < Branch.ref b
  | _ => True

/-- The root was just put on top, for an offset the tree had no room for. -/
def Grown (o : Nat) : Root → Prop
  | ⟨l + 1, some b, _, _⟩ => 2 ^ shift l ≤ o ∧ (∀ i, i ≠ 0 → Branch.child b i = none) ∧ Branch.ref b = 1
  | _ => False

theorem extend_grown {mem : Nat → Bool} {o : Nat} : ∀ (fuel : Nat) (r r' : Root), r.level = 0 ∨ r.node ≠ none → Compact r ∨ Grown o r → extend mem fuel r o = some (r', true) → Compact r' ∨ Grown o r' := by
  intro fuel
  induction fuel with
  | zero => intro r r' _ _ h; cases h
  | succ fuel ih =>
    rintro ⟨l, n | n, nx, fr⟩ r' hl hc h
    · obtain rfl : l = 0 := hl.resolve_right (fun h => h rfl)
      unfold extend at h
      split at h
      · exact ih ⟨0, some (zero 0 nx), nx + 1, fr⟩ _ (Or.inl rfl) (Or.inl trivial) h
      · cases h
    · unfold extend at h
      split at h
      · cases h; exact hc
      · rename_i hlt
        split at h
        · refine ih ⟨l + 1, some (Branch.mk nx (set (fun _ => none) 0 (some n)) 1), nx + 1, fr⟩ _ (Or.inr (by intro h; cases h)) (Or.inr ⟨?_, fun i hi => (set_other (fun _ => none) (some n) hi :), rfl⟩) h
          rw [log2_lt_shift (shift_pos l)] at hlt
          omega
        · cases h

theorem alloc_compact {mem : Nat → Bool} (hmem : ∀ k, mem k = true) {r r' : Root} {o : Nat} {p : Option Ptr} (hg : Good r) (ho : o < 2 ^ 63) (h : alloc mem r o = some (r', p)) (hc : Compact r) : Compact r' := by
  obtain ⟨r1, ok, he, h1, h2, h3, h4, h5⟩ := extend_ok mem o ho 64 r hg (by split <;> omega)
  unfold alloc at h
  rw [he] at h
  cases ok with
  | false =>
    obtain ⟨k, _, _, hk⟩ := (h5 rfl).2
    rw [hmem k] at hk; cases hk
  | true =>
    have hl0 : r.level = 0 ∨ r.node ≠ none := by
      by_cases hn : r.node = none
      · exact Or.inl (hg.null hn)
      · exact Or.inr hn
    have hc1 := extend_grown 64 r r1 hl0 (Or.inl hc) he
    obtain ⟨l, n, nx, fr, e, hlt⟩ := h4 rfl
    subst e
    have h : ((allocIn mem l n o nx).bind fun t => some ((⟨l, some t.1, t.2.2, fr⟩ : Root), t.2.1)) = some (r', p) := h
    cases ha : allocIn mem l n o nx with
    | none => rw [ha] at h; cases h
    | some t =>
      obtain ⟨n', p', nx'⟩ := t
      rw [ha] at h
      cases h
      cases l with
      | zero => trivial
      | succ l =>
        show 1 < Branch.ref n'
        unfold allocIn at ha
        split at ha
        · rename_i c hch
          cases hb : allocIn mem l c (o % 2 ^ shift l) nx with
          | none => rw [hb] at ha; cases ha
          | some t =>
            rw [hb] at ha
            cases ha
            rcases hc1 with hc1 | ⟨g1, g2, _⟩
            · exact hc1
            · have hi : depthIndex l o ≠ 0 := by
                rw [(index_of_lt hlt).1]
                have := Nat.div_pos g1 (pow_pos' (shift l))
                omega
              have := g2 _ hi
              rw [this] at hch; cases hch
        · rw [if_pos (hmem nx)] at ha
          cases hb : allocIn mem l (zero l nx) (o % 2 ^ shift l) (nx + 1) with
          | none => rw [hb] at ha; cases ha
          | some t =>
            rw [hb] at ha
            cases ha
            show 1 < Branch.ref n + 1
            rcases hc1 with hc1 | ⟨_, _, g3⟩
            · have : 1 < Branch.ref n := hc1
              omega
            · omega

theorem shrink_compact (nx : Nat) : ∀ (l : Nat) (n : Node l) (fr : List Nat), Tidy l true n → Compact (shrink nx l n fr) := by
  intro l
  induction l with
  | zero => intro n fr h; trivial
  | succ l ih =>
    intro b fr h
    unfold shrink
    split
    · assumption
    · split
      · rename_i hn
        have := h.1 rfl
        rw [hn] at this; cases this
      · rename_i c hc
        exact ih c _ (h.2.2 0 c hc)

theorem free_compact {r r' : Root} {o : Nat} {e : Int} (hg : Good r) (hc : Clear r o) (h : free r o = some (r', e)) (ht : r.Tidy) (hp : Compact r) : Compact r' := by
  obtain ⟨l, n | n, nx, fr⟩ := r
  · unfold free at h
    split at h
    · cases h; exact hp
    · split at h
      · cases h
      · cases h; exact hp
  · have hwf := hg.wf _ _ _ _ rfl
    rcases hc with hc | hc
    · cases hc
    dsimp only at hc
    unfold free at h
    dsimp only at h
    split at h
    · cases h; exact hp
    · rename_i hgt
      have hlt : o < 2 ^ shift l := (log2_lt_shift (shift_pos l)).1 (by omega)
      split at h
      · cases h
      · have hd : decide (o / 2 ^ shift l = 0) = true := by rw [Nat.div_eq_of_lt hlt]; rfl
        have hs := freeIn_tidy l n o o (Nat.mod_eq_of_lt hlt) hwf (by rw [hd]; exact ht)
        rw [hd] at hs
        cases hf : freeIn l n o o with
        | ub => rw [hf] at h; cases h
        | absent => rw [hf] at h; cases h; exact hp
        | gone w fr' => rw [hf] at h; cases h
        | kept n' stop fr' =>
          rw [hf] at h hs
          dsimp only at h
          split at h
          · cases h; exact shrink_compact _ _ _ _ hs
          · rename_i hstop
            cases h
            cases l with
            | zero => trivial
            | succ l =>
              show 1 < Branch.ref n'
              unfold freeIn at hf
              split at hf
              · cases hf
              · split at hf
                · cases hf
                · cases hf
                · cases hf; exact hp
                · dsimp only at hf
                  split at hf
                  · cases hf; exact absurd rfl hstop
                  · split at hf
                    · cases hf; exact absurd rfl hstop
                    · cases hf

theorem run_compact {mem : Nat → Bool} (hmem : ∀ k, mem k = true) {r : Root} {M : Sparse} (h : Run mem r M) : Compact r := by
  induction h with
  | init => trivial
  | alloc h ho he ih => exact alloc_compact hmem h.inv.good ho he ih
  | refused h ho he ih => exact alloc_compact hmem h.inv.good ho he ih
  | free h hc he ih => exact free_compact h.inv.good hc he (h.inv.tidy hmem) ih
  | @release r M _ _ => obtain ⟨l, n | n, nx, fr⟩ := r <;> trivial

/-- The elements below a node, by their offsets inside it. -/
def elems : (l : Nat) → Node l → List Nat
  | 0, n => (List.range 256).filter (Leaf.bits n)
  | l + 1, b => (List.range 32).flatMap fun i => match Branch.child b i with | none => [] | some c => (elems l c).map (join l i)

/-- The elements below the child `i`. -/
def below (l : Nat) (f : Nat → Option (Node l)) (i : Nat) : List Nat := match f i with | none => [] | some c => (elems l c).map (join l i)

theorem elems_succ (l : Nat) (b : Branch (Node l)) : elems (l + 1) b = (List.range 32).flatMap (below l b.child) := rfl

theorem mem_elems : ∀ (l : Nat) (n : Node l) {x : Nat}, x ∈ elems l n → x < 2 ^ shift l ∧ cell l n x ≠ none := by
  intro l
  induction l with
  | zero =>
    intro n x h
    unfold elems at h
    rw [List.mem_filter, List.mem_range] at h
    refine ⟨h.1, ?_⟩
    rw [cell_zero, if_pos h.2]
    intro h; cases h
  | succ l ih =>
    intro b x h
    unfold elems at h
    rw [List.mem_flatMap] at h
    obtain ⟨i, hi, h⟩ := h
    rw [List.mem_range] at hi
    cases hc : Branch.child b i with
    | none => rw [hc] at h; cases h
    | some c =>
      rw [hc] at h
      obtain ⟨y, hy, rfl⟩ := List.mem_map.1 h
      obtain ⟨h1, h2⟩ := ih c hy
      refine ⟨join_lt hi h1, ?_⟩
      rw [cell_join b hi h1, hc]
      exact h2

theorem elems_sorted : ∀ (l : Nat) (n : Node l), (elems l n).Pairwise (· < ·) := by
  intro l
  induction l with
  | zero => intro n; exact List.Pairwise.filter _ List.pairwise_lt_range
  | succ l ih =>
    intro b
    unfold elems
    rw [List.pairwise_flatMap]
    refine ⟨fun i _ => ?_, ?_⟩
    · cases hc : Branch.child b i with
      | none => exact List.Pairwise.nil
      | some c =>
        rw [List.pairwise_map]
        refine (ih c).imp_of_mem fun ha hb h => ?_
        exact (join_lt_iff (mem_elems l c ha).1 (mem_elems l c hb).1).2 (Or.inr ⟨rfl, h⟩)
    · refine List.pairwise_lt_range.imp fun {i j} hij x hx y hy => ?_
      cases hc : Branch.child b i with
      | none => rw [hc] at hx; cases hx
      | some c =>
        cases hd : Branch.child b j with
        | none => rw [hd] at hy; cases hy
        | some d =>
          rw [hc] at hx; rw [hd] at hy
          obtain ⟨x', hx', rfl⟩ := List.mem_map.1 hx
          obtain ⟨y', hy', rfl⟩ := List.mem_map.1 hy
          exact (join_lt_iff (mem_elems l c hx').1 (mem_elems l d hy').1).2 (Or.inl hij)

theorem sum_bound {A B : Nat} {f g : Nat → List Nat} : ∀ (L : List Nat), (∀ i ∈ L, (f i).length ≤ A * (g i).length + if i = 0 then B else 0) →
    (L.flatMap f).length ≤ A * (L.flatMap g).length + B * L.count 0
  | [], _ => by simp
  | i :: L, h => by
    have h1 := h i (by simp)
    have h2 := sum_bound L (fun j hj => h j (by simp [hj]))
    rw [List.flatMap_cons, List.flatMap_cons, List.length_append, List.length_append, Nat.mul_add, List.count_cons]
    by_cases hi : i = 0
    · subst hi
      rw [if_pos rfl] at h1
      rw [if_pos (by simp), Nat.mul_add, Nat.mul_one]
      omega
    · rw [if_neg hi] at h1
      rw [if_neg (by simpa using hi), Nat.mul_add, Nat.mul_zero]
      omega

/-- Nodes that are not leftmost hold an element, and every element accounts for the nodes on the way to it. -/
theorem nodes_bound : ∀ (l : Nat) (n : Node l), (Tidy l false n → elems l n ≠ [] ∧ (destroy l n).length ≤ (l + 1) * (elems l n).length) ∧
    (Tidy l true n → (destroy l n).length ≤ l * (elems l n).length + (l + 1)) := by
  intro l
  induction l with
  | zero =>
    intro n
    refine ⟨fun h => ?_, fun _ => ?_⟩
    · obtain ⟨i, hi, hb⟩ := h.resolve_left (by simp)
      have : elems 0 n ≠ [] := List.ne_nil_of_mem (a := i) (by unfold elems; rw [List.mem_filter, List.mem_range]; exact ⟨hi, hb⟩)
      have h1 := List.length_pos_iff.2 this
      refine ⟨this, ?_⟩
      rw [destroy_zero, List.length_singleton]
      omega
    · rw [destroy_zero, List.length_singleton]
      omega
  | succ l ih =>
    intro b
    have key : ∀ lm, Tidy (l + 1) lm b → ∀ i ∈ List.range 32, (kids l (Branch.child b) i).length ≤
        (l + 1) * (below l (Branch.child b) i).length + if i = 0 then (if lm then l + 1 else 0) else 0 := by
      intro lm h i _
      unfold kids below
      cases hc : Branch.child b i with
      | none => simp
      | some c =>
        dsimp only
        rw [List.length_map]
        have ht := h.2.2 i c hc
        by_cases hi : i = 0 ∧ lm = true
        · obtain ⟨rfl, rfl⟩ := hi
          have := (ih c).2 ht
          rw [if_pos rfl, if_pos rfl, Nat.add_mul]
          omega
        · have hf : (lm && i == 0) = false := by
            cases lm
            · rfl
            · simp at hi ⊢; exact hi
          rw [hf] at ht
          have := ((ih c).1 ht).2
          exact Nat.le_trans this (Nat.le_add_right _ _)
    have hcount : (List.range 32).count 0 = 1 := by decide
    refine ⟨fun h => ?_, fun h => ?_⟩
    · have hb := sum_bound (List.range 32) (key false h)
      have he : elems (l + 1) b ≠ [] := by
        obtain ⟨i, hi, hs⟩ := h.2.1
        cases hc : Branch.child b i with
        | none => rw [hc] at hs; cases hs
        | some c =>
          have ht := h.2.2 i c hc
          obtain ⟨x, hx⟩ := List.exists_mem_of_ne_nil _ ((ih c).1 ht).1
          refine List.ne_nil_of_mem (a := join l i x) ?_
          unfold elems
          rw [List.mem_flatMap]
          exact ⟨i, List.mem_range.2 hi, by rw [hc]; exact List.mem_map.2 ⟨x, hx, rfl⟩⟩
      refine ⟨he, ?_⟩
      have h1 := List.length_pos_iff.2 he
      rw [hcount, Nat.mul_one, if_neg (by simp), Nat.add_zero] at hb
      rw [destroy_succ, List.length_append, List.length_singleton, Nat.add_mul (l + 1) 1]
      have hb' : ((List.range 32).flatMap (kids l (Branch.child b))).length ≤ (l + 1) * (elems (l + 1) b).length := by rw [elems_succ]; exact hb
      omega
    · have hb := sum_bound (List.range 32) (key true h)
      rw [hcount, Nat.mul_one, if_pos rfl] at hb
      rw [destroy_succ, List.length_append, List.length_singleton]
      have hb' : ((List.range 32).flatMap (kids l (Branch.child b))).length ≤ (l + 1) * (elems (l + 1) b).length + (l + 1) := by rw [elems_succ]; exact hb
      omega

theorem ref_child {α : Type} {f : Nat → Option α} (h : 1 < (List.range 32).countP fun i => (f i).isSome) : ∃ i, i ≠ 0 ∧ i < 32 ∧ (f i).isSome := by
  apply Classical.byContradiction
  intro hn
  have h1 : ∀ i ∈ List.range 32, (f i).isSome = true → (i == 0) = true := by
    intro i hi hs
    by_cases h0 : i = 0
    · simpa using h0
    · exact absurd ⟨i, h0, List.mem_range.1 hi, hs⟩ hn
  have h2 := List.countP_mono_left h1
  have h3 : (List.range 32).countP (· == 0) = 1 := by decide
  omega

/-- **C122.** Height: a tree has only the levels it needs. Above the leaves there is a level only if there is an element that the levels below it have no room for — also after elements with high offsets were freed. Missing: histories in which memory was refused, see `height_violated`. -/
theorem height_needed_partial {mem : Nat → Bool} (hm : ∀ k, mem k = true) {r : Root} {M : Sparse} (h : Run mem r M) {l : Nat} (hl : r.level = l + 1) : ∃ o, M o ≠ none ∧ 2 ^ shift l ≤ o := by
  have hi := h.inv
  have hc := run_compact hm h
  have ht := hi.tidy hm
  obtain ⟨l', n | n, nx, fr⟩ := r
  · have := hi.good.null rfl
    omega
  · dsimp only at hl
    subst hl
    have hw := hi.good.wf _ _ _ _ rfl
    have hr : 1 < Branch.ref n := hc
    rw [hw.1] at hr
    obtain ⟨i, h0, hi32, hs⟩ := ref_child hr
    cases hch : Branch.child n i with
    | none => rw [hch] at hs; cases hs
    | some c =>
      have htc := ht.2.2 i c hch
      have hf : (true && i == 0) = false := by simpa using h0
      rw [hf] at htc
      obtain ⟨x, hx⟩ := List.exists_mem_of_ne_nil _ ((nodes_bound l c).1 htc).1
      obtain ⟨h1, h2⟩ := mem_elems l c hx
      refine ⟨join l i x, ?_, ?_⟩
      · rw [← hi.get, get_some, if_pos (join_lt hi32 h1), cell_join n hi32 h1, hch]
        exact h2
      · unfold join
        have := Nat.mul_le_mul_right (2 ^ shift l) (Nat.pos_of_ne_zero h0)
        omega

/-- **C122.** Memory: of the nodes handed out so far, all but one per level, and one per level and element, have been given back. Missing: as above. -/
theorem nodes_needed_partial {mem : Nat → Bool} (hm : ∀ k, mem k = true) {r : Root} {M : Sparse} (h : Run mem r M) (os : List Nat) (hos : ∀ o, M o ≠ none → o ∈ os) :
    r.next - r.freed.length ≤ r.level * os.length + (r.level + 1) := by
  have hi := h.inv
  have hp : (r.ids ++ r.freed).Perm (granted mem r.next) := by
    rw [perm_count]
    intro y
    rw [List.count_append]
    exact hi.owned y
  have hlen := hp.length_eq
  have hgr : (granted mem r.next).length = r.next := by
    unfold granted
    rw [List.filter_eq_self.2 (fun a _ => hm a), List.length_range]
  rw [List.length_append, hgr] at hlen
  have ht := hi.tidy hm
  obtain ⟨l, n | n, nx, fr⟩ := r
  · dsimp only [Root.ids] at hlen ⊢
    rw [List.length_nil] at hlen
    omega
  · dsimp only [Root.ids] at hlen ⊢
    have hb := (nodes_bound l n).2 ht
    have hsub : (elems l n).length ≤ os.length := by
      refine List.Nodup.length_le_of_subset ((elems_sorted l n).imp Nat.ne_of_lt) fun x hx => hos x ?_
      obtain ⟨h1, h2⟩ := mem_elems l n hx
      rw [← hi.get, get_some, if_pos h1]
      exact h2
    have := Nat.mul_le_mul_left l hsub
    omega

/-- **C122.** When the last element was freed, at most one node is still in use. Missing: as above. -/
theorem empty_one_node_partial {mem : Nat → Bool} (hm : ∀ k, mem k = true) {r : Root} {M : Sparse} (h : Run mem r M) (he : ∀ o, M o = none) : r.level = 0 ∧ r.next - r.freed.length ≤ 1 := by
  have h0 : r.level = 0 := by
    rcases hl : r.level with _ | l
    · rfl
    · obtain ⟨o, ho, _⟩ := height_needed_partial hm h hl
      exact absurd (he o) ho
  have := nodes_needed_partial hm h [] (fun o ho => absurd (he o) ho)
  rw [h0] at this
  exact ⟨h0, by simpa using this⟩

/-- **C122** fails after a refusal: an allocation that could not be completed leaves the levels it had added, although nothing is stored there. -/
theorem height_violated : ∃ mem r M, Run mem r M ∧ (∀ o, M o = none) ∧ r.level = 3 ∧ r.freed = [] := by
  have h : ((alloc (fun k => decide (k < 4)) init 300000).any fun t => t.1.level == 3 && t.1.freed == [] && t.2.isNone) = true := by decide +kernel
  cases ha : alloc (fun k => decide (k < 4)) init 300000 with
  | none => rw [ha] at h; cases h
  | some t =>
    obtain ⟨r, p⟩ := t
    rw [ha] at h
    simp only [Option.any_some, Bool.and_eq_true, beq_iff_eq] at h
    cases p with
    | some p => cases h.2
    | none => exact ⟨_, r, _, Run.refused .init (by decide) ha, fun _ => rfl, h.1.1, h.1.2⟩

/-- Three elements, one of them far away: the tree is three levels high and falls back to one when the far one is freed. -/
example : ∃ r M r' M', Run (fun _ => true) r M ∧ r.level = 3 ∧ M 300000 ≠ none ∧ Run (fun _ => true) r' M' ∧ r'.level = 0 ∧ M' 0 ≠ none := by
  obtain ⟨r, M, h1, h2⟩ := exec_ex (mem := fun _ => true) [.alloc 300000, .alloc 7, .alloc 0] (fun r M => r.level == 3 && (M 300000).isSome) (by decide +kernel)
  obtain ⟨r', M', h3, h4⟩ := exec_ex (mem := fun _ => true) [.free 300000, .alloc 300000, .alloc 7, .alloc 0] (fun r M => r.level == 0 && (M 0).isSome) (by decide +kernel)
  simp only [Bool.and_eq_true, beq_iff_eq] at h2 h4
  exact ⟨r, M, r', M', h1, h2.1, fun h => (by have := h2.2; rw [h] at this; cases this), h3, h4.1, fun h => (by have := h4.2; rw [h] at this; cases this)⟩

end Bfdev.Radix.Height

import Verif.Radix.Free
/-! Which nodes a tree is made of, and that they were allocated and not given back. -/
namespace Bfdev.Radix

theorem flatMap_set (f : Nat → List Nat) (i : Nat) (x : List Nat) (L : List Nat) (hn : L.Nodup) (hi : i ∈ L) :
    (L.flatMap (set f i x) ++ f i).Perm (L.flatMap f ++ x) := by
  induction L with
  | nil => simp at hi
  | cons a L ih =>
    rw [List.nodup_cons] at hn
    by_cases ha : a = i
    · subst ha
      have : L.flatMap (set f a x) = L.flatMap f := by
        have hcg : ∀ j ∈ L, set f a x j = f j := fun j hj => set_other _ _ (show j ≠ a from fun e => hn.1 (e ▸ hj))
        unfold List.flatMap
        rw [List.map_congr_left hcg]
      rw [List.flatMap_cons, List.flatMap_cons, this, set_same]
      refine (List.perm_append_comm (l₁ := x ++ _) (l₂ := f a)).trans ?_
      rw [List.append_assoc]
      exact (List.perm_append_comm (l₁ := x)).append_left _
    · have hi' : i ∈ L := by
        rcases List.mem_cons.1 hi with e | e
        · exact absurd e.symm ha
        · exact e
      rw [List.flatMap_cons, List.flatMap_cons, set_other _ _ ha, List.append_assoc, List.append_assoc]
      exact (ih hn.2 hi').append_left _

/-- The nodes below the children of a branch. -/
def kids (l : Nat) (f : Nat → Option (Node l)) (i : Nat) : List Nat := match f i with | none => [] | some c => destroy l c

theorem destroy_zero (n : Leaf) : destroy 0 n = [n.id] := rfl
theorem destroy_succ (l : Nat) (b : Branch (Node l)) : destroy (l + 1) b = (List.range 32).flatMap (kids l b.child) ++ [b.id] := rfl

theorem kids_set (l : Nat) (f : Nat → Option (Node l)) (i : Nat) (x : Option (Node l)) :
    kids l (set f i x) = set (kids l f) i (match x with | none => [] | some c => destroy l c) := by
  funext j
  unfold kids
  by_cases h : j = i
  · subst h; rw [set_same, set_same]
  · rw [set_other _ _ h, set_other _ _ h]

theorem kids_perm (l : Nat) (f : Nat → Option (Node l)) (i : Nat) (x : Option (Node l)) (hi : i < 32) :
    ((List.range 32).flatMap (kids l (set f i x)) ++ kids l f i).Perm
      ((List.range 32).flatMap (kids l f) ++ (match x with | none => [] | some c => destroy l c)) := by
  rw [kids_set]
  exact flatMap_set _ _ _ _ List.nodup_range (List.mem_range.2 hi)

theorem destroy_fresh (l id : Nat) : destroy l (zero l id) = [id] := by
  cases l with
  | zero => rfl
  | succ l =>
    show (List.range 32).flatMap (kids l fun _ => none) ++ [id] = [id]
    have : (List.range 32).flatMap (kids l fun _ => none) = [] := by
      rw [List.flatMap_eq_nil_iff]; intro i _; rfl
    rw [this]; rfl

/-- The addresses handed out so far. -/
def granted (mem : Nat → Bool) (nx : Nat) : List Nat := (List.range nx).filter mem

theorem granted_succ (mem : Nat → Bool) (nx : Nat) : granted mem (nx + 1) = granted mem nx ++ if mem nx then [nx] else [] := by
  unfold granted
  rw [List.range_succ, List.filter_append]
  congr 1
  by_cases h : mem nx <;> simp [h]

theorem granted_yes {mem : Nat → Bool} {nx : Nat} (h : mem nx = true) : granted mem (nx + 1) = granted mem nx ++ [nx] := by
  rw [granted_succ, if_pos h]

theorem granted_no {mem : Nat → Bool} {nx : Nat} (h : ¬ mem nx = true) : granted mem (nx + 1) = granted mem nx := by
  rw [granted_succ, if_neg h, List.append_nil]

/-- Counting is how permutations are proved here. -/
theorem perm_count {a b : List Nat} : a.Perm b ↔ ∀ x, a.count x = b.count x := List.perm_iff_count

theorem branch_count (l : Nat) (b : Branch (Node l)) (i : Nat) (hi : i < 32) (x : Option (Node l)) (ref y : Nat) :
    (destroy (l + 1) (Branch.mk b.id (set b.child i x) ref)).count y + (kids l b.child i).count y =
      (destroy (l + 1) b).count y + (match x with | none => [] | some c => destroy l c).count y := by
  have := perm_count.1 (kids_perm l b.child i x hi) y
  rw [List.count_append, List.count_append] at this
  rw [destroy_succ, destroy_succ, List.count_append, List.count_append]
  dsimp only
  omega

theorem allocIn_ids (mem : Nat → Bool) : ∀ (l : Nat) (n : Node l) (o nx : Nat) n' p nx', o < 2 ^ shift l →
    allocIn mem l n o nx = some (n', p, nx') → ∀ y, (destroy l n').count y + (granted mem nx).count y = (destroy l n).count y + (granted mem nx').count y := by
  intro l
  induction l with
  | zero =>
    intro n o nx n' p nx' ho h y
    unfold allocIn at h
    split at h
    · cases h
    · cases h; rfl
  | succ l ih =>
    intro b o nx n' p nx' ho h y
    obtain ⟨hi, hi32⟩ := index_of_lt ho
    have hm : o % 2 ^ shift l < 2 ^ shift l := Nat.mod_lt _ (pow_pos' _)
    unfold allocIn at h
    split at h
    · rename_i c hc
      cases ha : allocIn mem l c (o % 2 ^ shift l) nx with
      | none => rw [ha] at h; cases h
      | some t =>
        obtain ⟨c', p1, nx1⟩ := t
        rw [ha] at h
        cases h
        have h1 := ih _ _ _ _ _ _ hm ha y
        have h2 := branch_count l b _ hi32 (some c') (Branch.ref b) y
        have h3 : kids l b.child (depthIndex l o) = destroy l c := by unfold kids; rw [hc]
        rw [h3] at h2
        dsimp only at h2 ⊢
        omega
    · rename_i hc
      have h3 : kids l b.child (depthIndex l o) = [] := by unfold kids; rw [hc]
      split at h
      · rename_i hmem
        cases ha : allocIn mem l (zero l nx) (o % 2 ^ shift l) (nx + 1) with
        | none => rw [ha] at h; cases h
        | some t =>
          obtain ⟨c', p1, nx1⟩ := t
          rw [ha] at h
          cases h
          have h1 := ih _ _ _ _ _ _ hm ha y
          have h2 := branch_count l b _ hi32 (some c') (Branch.ref b + 1) y
          rw [h3] at h2
          rw [granted_yes hmem, List.count_append, destroy_fresh] at h1
          dsimp only at h2 ⊢
          simp only [List.count_nil] at h2
          omega
      · rename_i hmem
        cases h
        rw [granted_no hmem]

/-- The nodes of a tree. -/
def Root.ids : Root → List Nat
  | ⟨_, none, _, _⟩ => []
  | ⟨l, some n, _, _⟩ => destroy l n

/-- Every node handed out is in the tree or was given back, once. -/
def Owned (mem : Nat → Bool) (r : Root) : Prop := ∀ y, r.ids.count y + r.freed.count y = (granted mem r.next).count y

theorem grow_ids (l : Nat) (n : Node l) (nx y : Nat) :
    (destroy (l + 1) (Branch.mk nx (set (fun _ => none) 0 (some n)) 1)).count y = (destroy l n).count y + [nx].count y := by
  have := branch_count l (Branch.mk nx (fun _ => none) 0) 0 (by omega) (some n) 1 y
  have h2 : destroy (l + 1) (Branch.mk nx (fun _ => (none : Option (Node l))) 0) = [nx] := destroy_fresh (l + 1) nx
  have h3 : kids l (fun _ => none) 0 = [] := rfl
  dsimp only at this
  rw [h3, h2, List.count_nil] at this
  omega

theorem extend_ids (mem : Nat → Bool) (o : Nat) : ∀ (fuel : Nat) (r r' : Root) ok, extend mem fuel r o = some (r', ok) → Owned mem r → Owned mem r' := by
  intro fuel
  induction fuel with
  | zero => intro r r' ok h; cases h
  | succ fuel ih =>
    rintro ⟨l, n | n, nx, fr⟩ r' ok h ho
    · unfold extend at h
      split at h
      · rename_i hm
        refine ih _ _ _ h fun y => ?_
        have := ho y
        dsimp only [Root.ids] at this ⊢
        rw [destroy_fresh, granted_yes hm, List.count_append]
        rw [List.count_nil] at this
        omega
      · rename_i hm
        cases h
        intro y
        have := ho y
        dsimp only [Root.ids] at this ⊢
        rw [granted_no hm]; exact this
    · unfold extend at h
      split at h
      · cases h; exact ho
      · split at h
        · rename_i hm
          refine ih _ _ _ h fun y => ?_
          have := ho y
          dsimp only [Root.ids] at this ⊢
          rw [grow_ids, granted_yes hm, List.count_append]
          omega
        · rename_i hm
          cases h
          intro y
          have := ho y
          dsimp only [Root.ids] at this ⊢
          rw [granted_no hm]; exact this

theorem alloc_ids {mem : Nat → Bool} {r r' : Root} {o : Nat} {p : Option Ptr} (hg : Good r) (ho : o < 2 ^ 63) (h : alloc mem r o = some (r', p))
    (hw : Owned mem r) : Owned mem r' := by
  obtain ⟨r1, ok, he, h1, h2, h3, h4, h5⟩ := extend_ok mem o ho 64 r hg (by split <;> omega)
  have hw1 := extend_ids mem o 64 r r1 ok he hw
  unfold alloc at h
  rw [he] at h
  cases ok with
  | false => cases h; exact hw1
  | true =>
    obtain ⟨l, n, nx, fr, e, hlt⟩ := h4 rfl
    subst e
    have h : ((allocIn mem l n o nx).bind fun t => some ((⟨l, some t.1, t.2.2, fr⟩ : Root), t.2.1)) = some (r', p) := h
    cases ha : allocIn mem l n o nx with
    | none => rw [ha] at h; cases h
    | some t =>
      obtain ⟨n', p', nx'⟩ := t
      rw [ha] at h
      cases h
      intro y
      have g1 := hw1 y
      have g2 := allocIn_ids mem l n o nx _ _ _ hlt ha y
      dsimp only [Root.ids] at g1 ⊢
      omega

/-- What `freeIn` does to the nodes. -/
def FreeIds (l : Nat) (n : Node l) : Pruned (Node l) → Prop
  | .ub => True
  | .absent => True
  | .kept n' _ fr => ∀ y, (destroy l n').count y + fr.count y = (destroy l n).count y
  | .gone _ fr => ∀ y, fr.count y = (destroy l n).count y

theorem freeIn_ids : ∀ (l : Nat) (n : Node l) (o whole : Nat), o < 2 ^ shift l → WF l n → FreeIds l n (freeIn l n o whole) := by
  intro l
  induction l with
  | zero =>
    intro n o whole ho _
    unfold freeIn
    split
    · trivial
    · dsimp only
      split
      · split
        · intro y; rfl
        · intro y; rfl
      · intro y; rfl
  | succ l ih =>
    intro b o whole ho hw
    obtain ⟨hi, hi32⟩ := index_of_lt ho
    have hm : o % 2 ^ shift l < 2 ^ shift l := Nat.mod_lt _ (pow_pos' _)
    unfold freeIn
    cases hc : Branch.child b (depthIndex l o) with
    | none => trivial
    | some c =>
      have hs := ih c (o % 2 ^ shift l) whole hm (hw.2 _ _ hc).2
      have h3 : kids l b.child (depthIndex l o) = destroy l c := by unfold kids; rw [hc]
      have href := ref_dec hw hc
      dsimp only
      generalize freeIn l c (o % 2 ^ shift l) whole = s at hs ⊢
      cases s with
      | ub => trivial
      | absent => trivial
      | kept c' stop fr =>
        intro y
        have h1 := hs y
        have h2 := branch_count l b _ hi32 (some c') (Branch.ref b) y
        rw [h3] at h2
        dsimp only at h2 ⊢
        omega
      | gone w fr =>
        have hs : ∀ y, fr.count y = (destroy l c).count y := hs
        dsimp only
        have hk : ∀ stop, FreeIds (l + 1) b (.kept (Branch.mk (Branch.id b) (set (Branch.child b) (depthIndex l o) none) (dec32 (Branch.ref b))) stop fr) := by
          intro stop y
          have h1 := hs y
          have h2 := branch_count l b _ hi32 none (dec32 (Branch.ref b)) y
          rw [h3] at h2
          dsimp only at h2
          rw [List.count_nil] at h2
          omega
        generalize dec32 (Branch.ref b) = d at hk href ⊢
        split
        · exact hk _
        · rename_i hz
          split
          · exact hk _
          · intro y
            have h1 := hk none y
            rw [destroy_succ, List.count_append] at h1
            dsimp only at h1
            have h4 : (List.range 32).flatMap (kids l (set b.child (depthIndex l o) none)) = [] := by
              rw [List.flatMap_eq_nil_iff]
              intro i hi
              unfold kids
              rw [all_none (f := set b.child (depthIndex l o) none) (by rw [← href]; simpa using hz) i (List.mem_range.1 hi)]
            rw [h4, List.count_nil] at h1
            rw [List.count_append]
            omega

theorem shrink_ids (nx : Nat) : ∀ (l : Nat) (n : Node l) (fr : List Nat), WF l n → ∀ y,
    (shrink nx l n fr).ids.count y + (shrink nx l n fr).freed.count y = (destroy l n).count y + fr.count y := by
  intro l
  induction l with
  | zero => intro n fr hw y; rfl
  | succ l ih =>
    intro b fr hw y
    unfold shrink
    split
    · rfl
    · rename_i hr
      split
      · rfl
      · rename_i c hc
        rw [ih c _ (hw.2 _ _ hc).2 y]
        have h2 := branch_count l b 0 (by omega) none 0 y
        have h3 : kids l b.child 0 = destroy l c := by unfold kids; rw [hc]
        have h := count_set (Branch.child b) none (show 0 < 32 by omega)
        rw [hc] at h
        have h4 := hw.1
        simp only [Option.isSome_some, if_true, Option.isSome_none, Bool.false_eq_true, if_false] at h
        have h5 : (List.range 32).flatMap (kids l (set b.child 0 none)) = [] := by
          rw [List.flatMap_eq_nil_iff]
          intro i hi
          unfold kids
          rw [all_none (f := set (Branch.child b) 0 none) (by omega) i (List.mem_range.1 hi)]
        rw [destroy_succ] at h2
        dsimp only at h2
        rw [h5, h3, List.count_nil, List.nil_append] at h2
        rw [List.count_append]
        omega

theorem free_ids {mem : Nat → Bool} {r r' : Root} {o : Nat} {e : Int} (hg : Good r) (hc : Clear r o) (h : free r o = some (r', e))
    (hw : Owned mem r) : Owned mem r' := by
  obtain ⟨l, n | n, nx, fr⟩ := r
  · unfold free at h
    split at h
    · cases h; exact hw
    · split at h
      · cases h
      · cases h; exact hw
  · have hwf := hg.wf _ _ _ _ rfl
    rcases hc with hc | hc
    · cases hc
    dsimp only at hc
    unfold free at h
    dsimp only at h
    split at h
    · cases h; exact hw
    · rename_i hgt
      have hlt : o < 2 ^ shift l := (log2_lt_shift (shift_pos l)).1 (by omega)
      split at h
      · cases h
      · have hs := freeIn_ids l n o o hlt hwf
        have hs2 := freeIn_spec l n o o hlt hwf
        generalize freeIn l n o o = s at hs hs2 h
        cases s with
        | ub => cases h
        | absent => cases h; exact hw
        | gone w fr' => cases h
        | kept n' stop fr' =>
          have hs : ∀ y, (destroy l n').count y + fr'.count y = (destroy l n).count y := hs
          dsimp only at h
          split at h
          · cases h
            intro y
            have h1 := shrink_ids nx l n' (fr ++ fr') hs2.1 y
            have h2 := hs y
            have h3 := hw y
            have h4 := (shrink_ok nx l n' (fr ++ fr') hg.level hs2.1).2.2
            dsimp only [Root.ids] at h3
            rw [List.count_append] at h1
            rw [h4]
            omega
          · cases h
            intro y
            have h2 := hs y
            have h3 := hw y
            dsimp only [Root.ids] at h3 ⊢
            rw [List.count_append]
            omega

theorem release_ids {mem : Nat → Bool} {r : Root} (hw : Owned mem r) : Owned mem (release r) := by
  obtain ⟨l, n | n, nx, fr⟩ := r
  · exact hw
  · intro y
    have := hw y
    dsimp only [release, Root.ids] at this ⊢
    rw [List.count_append, List.count_nil]
    omega

/-! ### Different offsets, different places -/

theorem cell_mem : ∀ (l : Nat) (n : Node l) (o : Nat) (p : Ptr), o < 2 ^ shift l → cell l n o = some p → p.1 ∈ destroy l n ∧ p.2 = o % 256 := by
  intro l
  induction l with
  | zero =>
    intro n o p ho h
    rw [cell_zero] at h
    split at h
    · cases h
      rw [shift_zero] at ho
      exact ⟨by rw [destroy_zero]; simp, by dsimp only; omega⟩
    · cases h
  | succ l ih =>
    intro b o p ho h
    rw [cell_succ] at h
    split at h
    · cases h
    · rename_i c hc
      obtain ⟨h1, h2⟩ := ih c _ p (Nat.mod_lt _ (pow_pos' _)) h
      refine ⟨?_, ?_⟩
      · rw [destroy_succ, List.mem_append, List.mem_flatMap]
        refine Or.inl ⟨_, List.mem_range.2 (index_of_lt ho).2, ?_⟩
        unfold kids; rw [hc]; exact h1
      · rw [h2]
        exact Nat.mod_mod_of_dvd _ (by
          show 2 ^ 8 ∣ 2 ^ shift l
          exact Nat.pow_dvd_pow 2 (by unfold shift; omega))

theorem mod_block {o l : Nat} : o % 2 ^ shift l / 256 = o / 256 % 2 ^ (5 * l) := by
  have : 2 ^ shift l = 256 * 2 ^ (5 * l) := by unfold shift; rw [Nat.pow_add, Nat.mul_comm]
  rw [this, Nat.mod_mul_right_div_self]

theorem block_ext {l o o' : Nat} (ho : o < 2 ^ shift (l + 1)) (ho' : o' < 2 ^ shift (l + 1)) (hi : depthIndex l o = depthIndex l o')
    (h : o % 2 ^ shift l / 256 = o' % 2 ^ shift l / 256) : o / 256 = o' / 256 := by
  have e : 2 ^ shift l = 256 * 2 ^ (5 * l) := by unfold shift; rw [Nat.pow_add, Nat.mul_comm]
  have h1 := offset_split ho
  have h2 := offset_split ho'
  rw [← hi] at h2
  generalize o % 2 ^ shift l = a at h h1
  generalize o' % 2 ^ shift l = b at h h2
  rw [e, Nat.mul_left_comm] at h1 h2
  generalize depthIndex l o * 2 ^ (5 * l) = q at h1 h2
  omega

theorem cell_block : ∀ (l : Nat) (n : Node l) (o o' : Nat) (p q : Ptr), (destroy l n).Nodup → o < 2 ^ shift l → o' < 2 ^ shift l →
    cell l n o = some p → cell l n o' = some q → p.1 = q.1 → o / 256 = o' / 256 := by
  intro l
  induction l with
  | zero =>
    intro n o o' p q _ ho ho' h h' _
    rw [shift_zero] at ho ho'
    omega
  | succ l ih =>
    intro b o o' p q hn ho ho' h h' hpq
    rw [cell_succ] at h h'
    cases hc : Branch.child b (depthIndex l o) with
    | none => rw [hc] at h; cases h
    | some c =>
      cases hc' : Branch.child b (depthIndex l o') with
      | none => rw [hc'] at h'; cases h'
      | some c' =>
        rw [hc] at h
        rw [hc'] at h'
        dsimp only at h h'
        have hm := Nat.mod_lt o (pow_pos' (shift l))
        have hm' := Nat.mod_lt o' (pow_pos' (shift l))
        have h1 := (cell_mem l c _ p hm h).1
        have h2 := hpq ▸ (cell_mem l c' _ q hm' h').1
        rw [destroy_succ, List.nodup_append] at hn
        have hn := hn.1
        have hij : depthIndex l o = depthIndex l o' := by
          refine Classical.byContradiction fun hne => ?_
          unfold List.Nodup at hn
          rw [List.pairwise_flatMap] at hn
          have hp := List.pairwise_iff_getElem.1 hn.2
          have k1 : p.1 ∈ kids l b.child (depthIndex l o) := by unfold kids; rw [hc]; exact h1
          have k2 : p.1 ∈ kids l b.child (depthIndex l o') := by unfold kids; rw [hc']; exact h2
          have i1 : depthIndex l o < (List.range 32).length := by rw [List.length_range]; exact (index_of_lt ho).2
          have i2 : depthIndex l o' < (List.range 32).length := by rw [List.length_range]; exact (index_of_lt ho').2
          rcases Nat.lt_or_gt_of_ne hne with hlt | hlt
          · have := hp _ _ i1 i2 hlt
            rw [List.getElem_range, List.getElem_range] at this
            exact this _ k1 _ k2 rfl
          · have := hp _ _ i2 i1 hlt
            rw [List.getElem_range, List.getElem_range] at this
            exact this _ k2 _ k1 rfl
        rw [hij, hc'] at hc
        cases hc
        refine block_ext ho ho' hij (ih c _ _ p q ?_ hm hm' h h' hpq)
        unfold List.Nodup at hn
        rw [List.pairwise_flatMap] at hn
        have := hn.1 _ (List.mem_range.2 (index_of_lt ho').2)
        unfold kids at this
        rw [hc'] at this
        exact this

end Bfdev.Radix

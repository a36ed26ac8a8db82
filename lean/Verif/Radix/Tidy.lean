import Verif.Radix.Owner
/-! When no memory is refused, only the leaf of the lowest offsets can be empty. -/
namespace Bfdev.Radix

/-- No empty nodes, except that the leftmost leaf (`lm`) may be empty; the leftmost nodes have a first child. -/
def Tidy : (l : Nat) → Bool → Node l → Prop
  | 0, lm, n => lm = true ∨ ∃ i, i < 256 ∧ Leaf.bits n i = true
  | l + 1, lm, b => (lm = true → (Branch.child b 0).isSome) ∧ (∃ i, i < 32 ∧ (Branch.child b i).isSome) ∧
      ∀ i c, Branch.child b i = some c → Tidy l (lm && i == 0) c

theorem allocIn_tidy {mem : Nat → Bool} (hmem : ∀ k, mem k = true) : ∀ (l : Nat) (n : Node l) (o nx : Nat) n' p nx' lm, o < 2 ^ shift l →
    (Tidy l lm n ∨ lm = false ∧ ∃ id, n = zero l id) → allocIn mem l n o nx = some (n', p, nx') → Tidy l lm n' := by
  intro l
  induction l with
  | zero =>
    intro n o nx n' p nx' lm ho _ h
    rw [shift_zero] at ho
    unfold allocIn at h
    split at h
    · cases h
    · cases h
      refine Or.inr ⟨o, ho, ?_⟩
      dsimp only; rw [set_same]
  | succ l ih =>
    intro b o nx n' p nx' lm ho ht h
    obtain ⟨hi, hi32⟩ := index_of_lt ho
    have hm : o % 2 ^ shift l < 2 ^ shift l := Nat.mod_lt _ (pow_pos' _)
    have build : ∀ c' ref, Tidy l (lm && depthIndex l o == 0) c' →
        Tidy (l + 1) lm (Branch.mk (Branch.id b) (set (Branch.child b) (depthIndex l o) (some c')) ref) := by
      intro c' ref hc'
      refine ⟨fun hlm => ?_, ⟨_, hi32, ?_⟩, fun i c hc => ?_⟩
      · dsimp only
        by_cases e : 0 = depthIndex l o
        · rw [← e, set_same]; rfl
        · rw [set_other _ _ e]
          rcases ht with ht | ⟨ht, _⟩
          · exact ht.1 hlm
          · rw [ht] at hlm; cases hlm
      · dsimp only; rw [set_same]; rfl
      · dsimp only at hc
        by_cases e : i = depthIndex l o
        · subst e; rw [set_same] at hc; cases hc; exact hc'
        · rw [set_other _ _ e] at hc
          rcases ht with ht | ⟨_, id, ht⟩
          · exact ht.2.2 i c hc
          · subst ht; cases hc
    unfold allocIn at h
    split at h
    · rename_i c hc
      cases ha : allocIn mem l c (o % 2 ^ shift l) nx with
      | none => rw [ha] at h; cases h
      | some t =>
        obtain ⟨c', p1, nx1⟩ := t
        rw [ha] at h
        cases h
        refine build _ _ (ih _ _ _ _ _ _ _ hm (Or.inl ?_) ha)
        rcases ht with ht | ⟨_, id, ht⟩
        · exact ht.2.2 _ c hc
        · subst ht; cases hc
    · rename_i hc
      rw [if_pos (hmem nx)] at h
      cases ha : allocIn mem l (zero l nx) (o % 2 ^ shift l) (nx + 1) with
      | none => rw [ha] at h; cases h
      | some t =>
        obtain ⟨c', p1, nx1⟩ := t
        rw [ha] at h
        cases h
        refine build _ _ (ih _ _ _ _ _ _ _ hm (Or.inr ⟨?_, nx, rfl⟩) ha)
        rcases ht with ht | ⟨ht, _⟩
        · cases lm with
          | false => rfl
          | true =>
            have := ht.1 rfl
            have hne : depthIndex l o ≠ 0 := by intro e; rw [e] at hc; rw [hc] at this; cases this
            simpa using hne
        · rw [ht]; rfl

/-- The tree behind a root is tidy. -/
def Root.Tidy : Root → Prop
  | ⟨_, none, _, _⟩ => True
  | ⟨l, some n, _, _⟩ => Radix.Tidy l true n

theorem extend_tidy {mem : Nat → Bool} (o : Nat) : ∀ (fuel : Nat) (r r' : Root) ok, (r.node = none → r.level = 0) → extend mem fuel r o = some (r', ok) → r.Tidy → r'.Tidy := by
  intro fuel
  induction fuel with
  | zero => intro r r' ok _ h; cases h
  | succ fuel ih =>
    rintro ⟨l, n | n, nx, fr⟩ r' ok hg h ht
    · have : l = 0 := hg rfl
      subst this
      unfold extend at h
      split at h
      · exact ih ⟨0, some (zero 0 nx), nx + 1, fr⟩ _ _ (by intro h; cases h) h (Or.inl rfl)
      · cases h; trivial
    · unfold extend at h
      split at h
      · cases h; exact ht
      · rename_i hlt
        split at h
        · refine ih ⟨l + 1, some (Branch.mk nx (set (fun _ => none) 0 (some n)) 1), nx + 1, fr⟩ _ _ (by intro h; cases h) h ?_
          refine ⟨fun _ => ?_, ⟨0, by omega, ?_⟩, fun i c hc => ?_⟩
          · dsimp only; rw [set_same]; rfl
          · dsimp only; rw [set_same]; rfl
          · dsimp only at hc
            by_cases e : i = 0
            · subst e; rw [set_same] at hc; cases hc; exact ht
            · rw [set_other _ _ e] at hc; cases hc
        · cases h; exact ht

theorem alloc_tidy {mem : Nat → Bool} (hmem : ∀ k, mem k = true) {r r' : Root} {o : Nat} {p : Option Ptr} (hg : Good r) (ho : o < 2 ^ 63)
    (h : alloc mem r o = some (r', p)) (ht : r.Tidy) : r'.Tidy := by
  obtain ⟨r1, ok, he, h1, h2, h3, h4, h5⟩ := extend_ok mem o ho 64 r hg (by split <;> omega)
  have ht1 := extend_tidy o 64 r r1 ok hg.null he ht
  unfold alloc at h
  rw [he] at h
  cases ok with
  | false => cases h; exact ht1
  | true =>
    obtain ⟨l, n, nx, fr, e, hlt⟩ := h4 rfl
    subst e
    have h : ((allocIn mem l n o nx).bind fun t => some ((⟨l, some t.1, t.2.2, fr⟩ : Root), t.2.1)) = some (r', p) := h
    cases ha : allocIn mem l n o nx with
    | none => rw [ha] at h; cases h
    | some t =>
      obtain ⟨n', p', nx'⟩ := t
      rw [ha] at h
      cases h
      exact allocIn_tidy hmem l n o nx _ _ _ true hlt (Or.inl ht1) ha

theorem low_iff (whole l : Nat) : whole / 2 ^ shift l = 0 ↔ whole / 2 ^ shift (l + 1) = 0 ∧ depthIndex l whole = 0 := by
  rw [pow_succ_shift, Nat.mul_comm, ← Nat.div_div_eq_div_mul]
  unfold depthIndex
  generalize whole / 2 ^ shift l = q
  omega

theorem depthIndex_mod {l whole o : Nat} (h : whole % 2 ^ shift (l + 1) = o) : depthIndex l o = depthIndex l whole := by
  subst h
  unfold depthIndex
  rw [pow_succ_shift, Nat.mul_comm 32, Nat.mod_mul_right_div_self, Nat.mod_mod]

theorem mod_mod_shift {l whole o : Nat} (h : whole % 2 ^ shift (l + 1) = o) : whole % 2 ^ shift l = o % 2 ^ shift l := by
  subst h
  exact (Nat.mod_mod_of_dvd _ (by rw [pow_succ_shift]; exact Nat.dvd_mul_left _ _)).symm

/-- What `freeIn` does to tidiness. -/
def FreeTidy (l : Nat) (lm : Bool) : Pruned (Node l) → Prop
  | .kept n' _ _ => Tidy l lm n'
  | _ => True

theorem freeIn_tidy : ∀ (l : Nat) (n : Node l) (o whole : Nat), whole % 2 ^ shift l = o → WF l n →
    Tidy l (decide (whole / 2 ^ shift l = 0)) n → FreeTidy l (decide (whole / 2 ^ shift l = 0)) (freeIn l n o whole) := by
  intro l
  induction l with
  | zero =>
    intro n o whole ho _ ht
    unfold freeIn
    split
    · trivial
    · dsimp only
      split
      · split
        · rename_i h
          exact Or.inl (by simpa using mask_lt.1 h)
        · trivial
      · rename_i he
        refine Or.inr (Classical.byContradiction fun hn => he ((empty_iff _).2 fun i hi => ?_))
        cases hb : Leaf.bits (Leaf.mk (Leaf.id n) (set (Leaf.bits n) o false)) i with
        | false => rfl
        | true => exact absurd ⟨i, hi, hb⟩ hn
  | succ l ih =>
    intro b o whole ho hw ht
    have hlt : o < 2 ^ shift (l + 1) := ho ▸ Nat.mod_lt _ (pow_pos' _)
    obtain ⟨_, hi32⟩ := index_of_lt hlt
    have hidx := depthIndex_mod ho
    have hlow := low_iff whole l
    unfold freeIn
    cases hc : Branch.child b (depthIndex l o) with
    | none => trivial
    | some c =>
      have hlm : (decide (whole / 2 ^ shift (l + 1) = 0) && depthIndex l o == 0) = decide (whole / 2 ^ shift l = 0) := by
        rw [hidx, Bool.eq_iff_iff]
        simpa using hlow.symm
      have htc := ht.2.2 _ _ hc
      rw [hlm] at htc
      have hs := ih c (o % 2 ^ shift l) whole (mod_mod_shift ho) (hw.2 _ _ hc).2 htc
      have hs2 := freeIn_spec l c (o % 2 ^ shift l) whole (Nat.mod_lt _ (pow_pos' _)) (hw.2 _ _ hc).2
      have href := ref_dec hw hc
      dsimp only
      generalize freeIn l c (o % 2 ^ shift l) whole = s at hs hs2 ⊢
      cases s with
      | ub => trivial
      | absent => trivial
      | kept c' stop fr =>
        have hs : Tidy l (decide (whole / 2 ^ shift l = 0)) c' := hs
        refine ⟨fun hl => ?_, ⟨_, hi32, ?_⟩, fun i d hd => ?_⟩
        · dsimp only
          by_cases e : 0 = depthIndex l o
          · rw [← e, set_same]; rfl
          · rw [set_other _ _ e]; exact ht.1 hl
        · dsimp only; rw [set_same]; rfl
        · dsimp only at hd
          by_cases e : i = depthIndex l o
          · subst e; rw [set_same] at hd; cases hd; rw [hlm]; exact hs
          · rw [set_other _ _ e] at hd; exact ht.2.2 i d hd
      | gone w fr =>
        have hw1 : w = whole / 2 ^ shift l * 2 ^ shift l := hs2.1
        have hw2 : 256 ≤ w := hs2.2.1
        have hne : whole / 2 ^ shift l ≠ 0 := fun h => by
          have := (mask_lt (x := whole) (l := l)).2 h
          omega
        dsimp only
        have hmask : w / 2 ^ shift (l + 1) * 2 ^ shift (l + 1) = whole / 2 ^ shift (l + 1) * 2 ^ shift (l + 1) := by rw [hw1, mask_mask]
        have hz : decide (whole / 2 ^ shift (l + 1) = 0) = true → 0 ≠ depthIndex l o := by
          intro h e
          exact hne (hlow.2 ⟨by simpa using h, by omega⟩)
        have hkept : ∀ d stop, (∃ i, i < 32 ∧ (set (Branch.child b) (depthIndex l o) none i).isSome) →
            FreeTidy (l + 1) (decide (whole / 2 ^ shift (l + 1) = 0)) (.kept (Branch.mk (Branch.id b) (set (Branch.child b) (depthIndex l o) none) d) stop fr) := by
          intro d stop hex
          refine ⟨fun hl => ?_, hex, fun i e he => ?_⟩
          · dsimp only; rw [set_other _ _ (hz hl)]; exact ht.1 hl
          · dsimp only at he
            by_cases e' : i = depthIndex l o
            · subst e'; rw [set_same] at he; cases he
            · rw [set_other _ _ e'] at he; exact ht.2.2 i e he
        generalize dec32 (Branch.ref b) = d at href ⊢
        by_cases hd : d = 0
        · rw [if_neg (by simpa using hd)]
          split
          · rename_i h
            rw [hmask] at h
            have h := mask_lt.1 h
            refine hkept _ _ ⟨0, by omega, ?_⟩
            have hl : decide (whole / 2 ^ shift (l + 1) = 0) = true := by simpa using h
            rw [set_other _ _ (hz hl)]; exact ht.1 hl
          · trivial
        · rw [if_pos hd]
          refine hkept _ _ (Classical.byContradiction fun hn => hd ?_)
          rw [href, List.countP_eq_zero]
          intro i hi h
          exact hn ⟨i, List.mem_range.1 hi, h⟩

theorem shrink_tidy (nx : Nat) : ∀ (l : Nat) (n : Node l) (fr : List Nat), Tidy l true n → (shrink nx l n fr).Tidy := by
  intro l
  induction l with
  | zero => intro n fr h; exact h
  | succ l ih =>
    intro b fr h
    unfold shrink
    split
    · exact h
    · split
      · exact h
      · rename_i c hc
        exact ih c _ (h.2.2 0 c hc)

theorem free_tidy {r r' : Root} {o : Nat} {e : Int} (hg : Good r) (hc : Clear r o) (h : free r o = some (r', e)) (ht : r.Tidy) : r'.Tidy := by
  obtain ⟨l, n | n, nx, fr⟩ := r
  · unfold free at h
    split at h
    · cases h; exact ht
    · split at h
      · cases h
      · cases h; exact ht
  · have hwf := hg.wf _ _ _ _ rfl
    rcases hc with hc | hc
    · cases hc
    dsimp only at hc
    unfold free at h
    dsimp only at h
    split at h
    · cases h; exact ht
    · rename_i hgt
      have hlt : o < 2 ^ shift l := (log2_lt_shift (shift_pos l)).1 (by omega)
      split at h
      · cases h
      · have hd : decide (o / 2 ^ shift l = 0) = true := by rw [Nat.div_eq_of_lt hlt]; rfl
        have hs := freeIn_tidy l n o o (Nat.mod_eq_of_lt hlt) hwf (by rw [hd]; exact ht)
        rw [hd] at hs
        generalize freeIn l n o o = s at hs h
        cases s with
        | ub => cases h
        | absent => cases h; exact ht
        | gone w fr' => cases h
        | kept n' stop fr' =>
          dsimp only at h
          split at h
          · cases h; exact shrink_tidy _ _ _ _ hs
          · cases h; exact hs

end Bfdev.Radix

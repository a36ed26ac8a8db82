import Verif.Radix.Lemmas
namespace Bfdev.Radix

theorem empty_iff (n : Leaf) : empty n = true ↔ ∀ i, i < 256 → n.bits i = false := by
  unfold empty; simp [List.all_eq_true]

theorem mask_mask (x l : Nat) : x / 2 ^ shift l * 2 ^ shift l / 2 ^ shift (l + 1) = x / 2 ^ shift (l + 1) := by
  rw [pow_succ_shift, Nat.mul_comm 32, ← Nat.div_div_eq_div_mul, ← Nat.div_div_eq_div_mul, Nat.mul_div_cancel _ (pow_pos' _)]

theorem mask_lt {x l : Nat} : x / 2 ^ shift l * 2 ^ shift l < 256 ↔ x / 2 ^ shift l = 0 := by
  have h : 256 ≤ 2 ^ shift l := by
    have : 2 ^ shift l = 2 ^ (5 * l) * 256 := by unfold shift; rw [Nat.pow_add]
    have := pow_pos' (5 * l)
    omega
  constructor
  · intro h2
    refine Nat.eq_zero_of_not_pos fun hp => ?_
    have := Nat.mul_le_mul_right (2 ^ shift l) hp
    omega
  · intro h2; rw [h2]; omega

theorem ref_dec {b : Branch (Node l)} (hw : WF (l + 1) b) {i : Nat} {c : Node l} (hc : b.child i = some c) :
    dec32 b.ref = (List.range 32).countP (fun j => (set b.child i none j).isSome) := by
  have hi := (hw.2 _ _ hc).1
  have h := count_set b.child none hi
  rw [hc] at h
  have h2 := hw.1
  have h3 := count_le b.child
  simp only [Option.isSome_some, if_true, Option.isSome_none, Bool.false_eq_true, if_false] at h
  unfold dec32
  omega

theorem all_none {α : Type} {f : Nat → Option α} (h : (List.range 32).countP (fun j => (f j).isSome) = 0) (i : Nat) (hi : i < 32) : f i = none := by
  rw [List.countP_eq_zero] at h
  have := h i (List.mem_range.2 hi)
  simpa using this

/-- What `freeIn` must do to the content of a tree. -/
def FreeSpec (l : Nat) (n : Node l) (o whole : Nat) : Pruned (Node l) → Prop
  | .ub => False
  | .absent => cell l n o = none
  | .kept n' stop _ => WF l n' ∧ (∀ x, x < 2 ^ shift l → x ≠ o → cell l n' x = cell l n x) ∧ cell l n' o = none
  | .gone w _ => w = whole / 2 ^ shift l * 2 ^ shift l ∧ 256 ≤ w ∧ ∀ x, x < 2 ^ shift l → x ≠ o → cell l n x = none

theorem freeIn_spec : ∀ (l : Nat) (n : Node l) (o whole : Nat), o < 2 ^ shift l → WF l n → FreeSpec l n o whole (freeIn l n o whole) := by
  intro l
  induction l with
  | zero =>
    intro n o whole ho _
    have ho' := ho
    rw [shift_zero] at ho'
    have hcell : ∀ x, x ≠ o → cell 0 (Leaf.mk (Leaf.id n) (set (Leaf.bits n) o false)) x = cell 0 n x := by
      intro x hx
      rw [cell_zero, cell_zero]
      show (if set (Leaf.bits n) o false x then _ else _) = _
      rw [set_other _ _ hx]
    have hno : cell 0 (Leaf.mk (Leaf.id n) (set (Leaf.bits n) o false)) o = none := by
      rw [cell_zero]
      show (if set (Leaf.bits n) o false o then _ else _) = _
      rw [set_same]; rfl
    unfold freeIn
    rw [if_neg (by omega)]
    dsimp only
    split
    · rename_i he
      split
      · exact ⟨trivial, fun x _ => hcell x, hno⟩
      · rename_i hw
        refine ⟨rfl, by omega, fun x hx hne => ?_⟩
        rw [← hcell x hne, cell_zero, (empty_iff _).1 he x (by rw [shift_zero] at hx; exact hx)]; rfl
    · exact ⟨trivial, fun x _ => hcell x, hno⟩
  | succ l ih =>
    intro b o whole ho hw
    obtain ⟨hi, hi32⟩ := index_of_lt ho
    have hm : o % 2 ^ shift l < 2 ^ shift l := Nat.mod_lt _ (pow_pos' _)
    unfold freeIn
    cases hc : Branch.child b (depthIndex l o) with
    | none => show cell (l + 1) b o = none; rw [cell_succ, hc]
    | some c =>
      have hwc := (hw.2 _ _ hc).2
      have hs := ih c (o % 2 ^ shift l) whole hm hwc
      have hb : ∀ x, depthIndex l x = depthIndex l o → cell (l + 1) b x = cell l c (x % 2 ^ shift l) := by
        intro x hx; rw [cell_succ, hx, hc]
      dsimp only
      generalize freeIn l c (o % 2 ^ shift l) whole = s at hs ⊢
      cases s with
      | ub => exact hs
      | absent => show cell (l + 1) b o = none; rw [hb o rfl]; exact hs
      | kept c' stop fr =>
        obtain ⟨h1, h2, h3⟩ := hs
        refine ⟨⟨?_, ?_⟩, ?_, ?_⟩
        · have := count_set (Branch.child b) (some c') hi32
          rw [hc] at this
          have h := hw.1
          dsimp only
          simp only [Option.isSome_some, if_true] at this
          omega
        · intro i d hd
          dsimp only at hd
          by_cases e : i = depthIndex l o
          · subst e; rw [set_same] at hd; cases hd; exact ⟨hi32, h1⟩
          · rw [set_other _ _ e] at hd; exact hw.2 i d hd
        · intro x hx hne
          by_cases e : depthIndex l x = depthIndex l o
          · rw [hb x e, cell_succ, e]; dsimp only; rw [set_same]
            exact h2 _ (Nat.mod_lt _ (pow_pos' _)) fun e' => hne (offset_ext hx ho e e')
          · rw [cell_succ, cell_succ]; dsimp only; rw [set_other _ _ e]
        · rw [cell_succ]; dsimp only; rw [set_same]; exact h3
      | gone w fr =>
        have h1 := hs.1
        have h3 := hs.2.2
        dsimp only
        have href := ref_dec hw hc
        rw [href]
        have hcell : ∀ x, x < 2 ^ shift (l + 1) → x ≠ o → cell (l + 1)
            (Branch.mk (Branch.id b) (set (Branch.child b) (depthIndex l o) none) ((List.range 32).countP fun j => (set (Branch.child b) (depthIndex l o) none j).isSome)) x = cell (l + 1) b x := by
          intro x hx hne
          by_cases e : depthIndex l x = depthIndex l o
          · rw [hb x e, cell_succ, e]; dsimp only; rw [set_same]
            exact (h3 _ (Nat.mod_lt _ (pow_pos' _)) fun e' => hne (offset_ext hx ho e e')).symm
          · rw [cell_succ, cell_succ]; dsimp only; rw [set_other _ _ e]
        have hkept : ∀ stop fr', FreeSpec (l + 1) b o whole (.kept (Branch.mk (Branch.id b) (set (Branch.child b) (depthIndex l o) none)
            ((List.range 32).countP fun j => (set (Branch.child b) (depthIndex l o) none j).isSome)) stop fr') := by
          intro stop fr'
          refine ⟨⟨rfl, ?_⟩, hcell, ?_⟩
          · intro i d hd
            dsimp only at hd
            by_cases e : i = depthIndex l o
            · subst e; rw [set_same] at hd; cases hd
            · rw [set_other _ _ e] at hd; exact hw.2 i d hd
          · rw [cell_succ]; dsimp only; rw [set_same]
        by_cases hz : (List.range 32).countP (fun j => (set (Branch.child b) (depthIndex l o) none j).isSome) = 0
        · rw [if_neg (by simpa using hz)]
          split
          · exact hkept _ _
          · rename_i hlt
            refine ⟨by rw [h1, mask_mask], by omega, fun x hx hne => ?_⟩
            rw [← hcell x hx hne, cell_succ]; dsimp only
            rw [all_none hz _ (index_of_lt hx).2]
        · rw [if_pos hz]; exact hkept _ _

theorem shrink_ok (nx : Nat) : ∀ (l : Nat) (n : Node l) (fr : List Nat), l ≤ 11 → WF l n →
    Good (shrink nx l n fr) ∧ (∀ x, (shrink nx l n fr).get x = Root.get ⟨l, some n, nx, fr⟩ x) ∧ (shrink nx l n fr).next = nx := by
  intro l
  induction l with
  | zero => intro n fr hl hw; exact ⟨Good.mk' hl hw, fun _ => rfl, rfl⟩
  | succ l ih =>
    intro b fr hl hw
    unfold shrink
    split
    · exact ⟨Good.mk' hl hw, fun _ => rfl, rfl⟩
    · rename_i hr
      split
      · exact ⟨Good.mk' hl hw, fun _ => rfl, rfl⟩
      · rename_i c hc
        obtain ⟨h1, h2, h3⟩ := ih c (fr ++ [Branch.id b]) (by omega) (hw.2 _ _ hc).2
        refine ⟨h1, fun x => ?_, h3⟩
        rw [h2, get_some, get_some]
        have hz : ∀ i, i < 32 → i ≠ 0 → Branch.child b i = none := by
          intro i hi h0
          have h := count_set (Branch.child b) none (show 0 < 32 by omega)
          rw [hc] at h
          have h4 := hw.1
          simp only [Option.isSome_some, if_true, Option.isSome_none, Bool.false_eq_true, if_false] at h
          have := all_none (f := set (Branch.child b) 0 none) (by omega) i hi
          rwa [set_other _ _ h0] at this
        by_cases hx : x < 2 ^ shift l
        · rw [if_pos hx, if_pos (by rw [pow_succ_shift]; omega), cell_succ, depthIndex_zero hx, hc]
          dsimp only
          rw [Nat.mod_eq_of_lt hx]
        · rw [if_neg hx]
          split
          · rename_i hx2
            have : depthIndex l x ≠ 0 := by
              rw [(index_of_lt hx2).1]
              exact fun e => hx (by
                rcases (Nat.div_eq_zero_iff).1 e with h3 | h3
                · have := pow_pos' (shift l); omega
                · exact h3)
            rw [cell_succ, hz _ (index_of_lt hx2).2 this]
          · rfl

theorem free_ok {r : Root} (hg : Good r) {o : Nat} (hc : Clear r o) :
    ∃ r' e, free r o = some (r', e) ∧ Good r' ∧ r'.next = r.next ∧ (∀ x, x ≠ o → r'.get x = r.get x) ∧ r'.get o = none ∧
      (e = 0 ∨ e = -2 ∧ r.get o = none) := by
  obtain ⟨l, n | n, nx, fr⟩ := r
  · refine ⟨⟨l, none, nx, fr⟩, -2, ?_, hg, rfl, fun _ _ => rfl, rfl, Or.inr ⟨rfl, rfl⟩⟩
    have : l = 0 := hg.null rfl
    subst this
    unfold free
    split
    · rfl
    · rfl
  · have hw := hg.wf _ _ _ _ rfl
    have hl := hg.level
    dsimp only at hl
    rcases hc with hc | hc
    · cases hc
    dsimp only at hc
    unfold free
    dsimp only
    by_cases hlt : o < 2 ^ shift l
    · have h1 := (log2_lt_shift (shift_pos l)).2 hlt
      rw [if_neg (by omega), if_neg (by omega)]
      have hs := freeIn_spec l n o o hlt hw
      generalize freeIn l n o o = s at hs ⊢
      cases s with
      | ub => exact hs.elim
      | absent =>
        have hs : cell l n o = none := hs
        refine ⟨_, _, rfl, hg, rfl, fun _ _ => rfl, ?_, Or.inr ⟨rfl, ?_⟩⟩ <;> rw [get_some, if_pos hlt, hs]
      | gone w fr' =>
        obtain ⟨a, b, _⟩ := hs
        rw [Nat.div_eq_of_lt hlt] at a
        omega
      | kept n' stop fr' =>
        obtain ⟨a, b, c⟩ := hs
        dsimp only
        have hget : ∀ x, x ≠ o → Root.get ⟨l, some n', nx, fr ++ fr'⟩ x = Root.get ⟨l, some n, nx, fr⟩ x := by
          intro x hx
          rw [get_some, get_some]
          split
          · rename_i h; exact b x h hx
          · rfl
        have hno : Root.get ⟨l, some n', nx, fr ++ fr'⟩ o = none := by rw [get_some, if_pos hlt, c]
        split
        · obtain ⟨g1, g2, g3⟩ := shrink_ok nx l n' (fr ++ fr') hl a
          exact ⟨_, _, rfl, g1, g3, fun x hx => (g2 x).trans (hget x hx), (g2 o).trans hno, Or.inl rfl⟩
        · exact ⟨_, _, rfl, Good.mk' hl a, rfl, hget, hno, Or.inl rfl⟩
    · have h1 : ¬ o.log2 < shift l := fun h => hlt ((log2_lt_shift (shift_pos l)).1 h)
      rw [if_pos (by omega)]
      refine ⟨_, _, rfl, hg, rfl, fun _ _ => rfl, ?_, Or.inr ⟨rfl, ?_⟩⟩ <;> rw [get_some, if_neg hlt]

theorem find_ok {r : Root} (hg : Good r) {o : Nat} (hc : Clear r o) : find r o = some (r.get o) := by
  obtain ⟨l, n | n, nx, fr⟩ := r
  · have : l = 0 := hg.null rfl
    subst this
    unfold find
    split
    · rfl
    · rfl
  · have hl := hg.level
    dsimp only at hl
    rcases hc with hc | hc
    · cases hc
    dsimp only at hc
    unfold find
    dsimp only
    rw [get_some]
    by_cases hlt : o < 2 ^ shift l
    · have h1 := (log2_lt_shift (shift_pos l)).2 hlt
      rw [if_neg (by omega), if_neg (by omega), if_pos hlt]
      have hidx : ∀ (l : Nat) (n : Node l) (o : Nat) leaf i, o < 2 ^ shift l → walk l n o = some (leaf, i) → i < 256 := by
        intro l
        induction l with
        | zero => intro n o leaf i h e; cases e; rw [shift_zero] at h; exact h
        | succ l ih =>
          intro b o leaf i h e
          unfold walk at e
          split at e
          · cases e
          · exact ih _ _ _ _ (Nat.mod_lt _ (pow_pos' _)) e
      have := hidx l n o
      unfold cell
      cases hwk : walk l n o with
      | none => rfl
      | some t =>
        obtain ⟨leaf, i⟩ := t
        dsimp only
        rw [if_neg (by have := this leaf i hlt hwk; omega)]
        split <;> rfl
    · have h1 : ¬ o.log2 < shift l := fun h => hlt ((log2_lt_shift (shift_pos l)).1 h)
      rw [if_pos (by omega), if_neg hlt]

end Bfdev.Radix

import Verif.Radix.Spec
namespace Bfdev.Radix

theorem set_same {α} (f : Nat → α) (i : Nat) (x : α) : set f i x i = x := by simp [set]
theorem set_other {α} (f : Nat → α) {i j : Nat} (x : α) (h : j ≠ i) : set f i x j = f j := by simp [set, h]

/-- The content of a tree at an offset. -/
def cell (l : Nat) (n : Node l) (offset : Nat) : Option Ptr :=
  match walk l n offset with
  | none => none
  | some (leaf, i) => if leaf.bits i then some (leaf.id, i) else none

theorem cell_zero (n : Leaf) (o : Nat) : cell 0 n o = if n.bits o then some (n.id, o) else none := rfl

theorem cell_succ (l : Nat) (b : Branch (Node l)) (o : Nat) :
    cell (l + 1) b o = match b.child (depthIndex l o) with | none => none | some c => cell l c (o % 2 ^ shift l) := by
  unfold cell
  show (match (match b.child (depthIndex l o) with | none => none | some c => walk l c (o % 2 ^ shift l)) with | none => none | some (leaf, i) => _) = _
  cases b.child (depthIndex l o) <;> rfl

theorem cell_fresh (l id o : Nat) : cell l (zero l id) o = none := by
  cases l with
  | zero => rfl
  | succ l => rw [cell_succ]; rfl

theorem pow_pos' (n : Nat) : 0 < 2 ^ n := Nat.pow_pos (by omega)

theorem pow_succ_shift (l : Nat) : 2 ^ shift (l + 1) = 32 * 2 ^ shift l := by
  have : shift (l + 1) = shift l + 5 := by unfold shift; omega
  rw [this, Nat.pow_add, Nat.mul_comm]

theorem index_of_lt {l o : Nat} (h : o < 2 ^ shift (l + 1)) : depthIndex l o = o / 2 ^ shift l ∧ depthIndex l o < 32 := by
  rw [pow_succ_shift] at h
  have : o / 2 ^ shift l < 32 := (Nat.div_lt_iff_lt_mul (pow_pos' _)).2 (by omega)
  unfold depthIndex
  rw [Nat.mod_eq_of_lt this]
  exact ⟨rfl, this⟩

theorem offset_split {l o : Nat} (h : o < 2 ^ shift (l + 1)) : o = depthIndex l o * 2 ^ shift l + o % 2 ^ shift l := by
  rw [(index_of_lt h).1, Nat.mul_comm]; exact (Nat.div_add_mod _ _).symm

theorem offset_ext {l o o' : Nat} (h : o < 2 ^ shift (l + 1)) (h' : o' < 2 ^ shift (l + 1)) (hi : depthIndex l o = depthIndex l o')
    (hm : o % 2 ^ shift l = o' % 2 ^ shift l) : o = o' := by
  rw [offset_split h, offset_split h', hi, hm]

theorem shift_zero : 2 ^ shift 0 = 256 := by decide

theorem log2_lt_shift {o s : Nat} (hs : 0 < s) : o.log2 < s ↔ o < 2 ^ s := by
  by_cases h : o = 0
  · subst h; simpa using ⟨fun _ => pow_pos' _, fun _ => hs⟩
  · exact Nat.log2_lt h

theorem shift_pos (l : Nat) : 0 < shift l := by unfold shift; omega

/-- Reference counts are the numbers of children. -/
def WF : (l : Nat) → Node l → Prop
  | 0, _ => True
  | l + 1, b => Branch.ref b = (List.range 32).countP (fun i => (Branch.child b i).isSome) ∧
      ∀ i c, Branch.child b i = some c → i < 32 ∧ WF l c

theorem WF.fresh (l id : Nat) : WF l (zero l id) := by
  cases l with
  | zero => trivial
  | succ l =>
    refine ⟨?_, fun i c h => ?_⟩
    · show 0 = (List.range 32).countP (fun i => false)
      simp
    · cases h

theorem countP_set {α : Type} (f : Nat → Option α) (i : Nat) (x : Option α) (L : List Nat) (hn : L.Nodup) (hi : i ∈ L) :
    L.countP (fun j => (set f i x j).isSome) + (if (f i).isSome then 1 else 0) =
      L.countP (fun j => (f j).isSome) + (if x.isSome then 1 else 0) := by
  induction L with
  | nil => simp at hi
  | cons a L ih =>
    rw [List.nodup_cons] at hn
    by_cases ha : a = i
    · subst ha
      have : L.countP (fun j => (set f a x j).isSome) = L.countP (fun j => (f j).isSome) := by
        refine List.countP_congr fun j hj => ?_
        rw [set_other _ _ (show j ≠ a from fun e => hn.1 (e ▸ hj))]
      rw [List.countP_cons, List.countP_cons, this, set_same]
      omega
    · have hi' : i ∈ L := by
        rcases List.mem_cons.1 hi with e | e
        · exact absurd e.symm ha
        · exact e
      have := ih hn.2 hi'
      rw [List.countP_cons, List.countP_cons, set_other _ _ ha]
      omega

theorem count_set {α : Type} (f : Nat → Option α) {i : Nat} (x : Option α) (hi : i < 32) :
    (List.range 32).countP (fun j => (set f i x j).isSome) + (if (f i).isSome then 1 else 0) =
      (List.range 32).countP (fun j => (f j).isSome) + (if x.isSome then 1 else 0) :=
  countP_set f i x _ List.nodup_range (List.mem_range.2 hi)

theorem count_le {α : Type} (f : Nat → Option α) : (List.range 32).countP (fun j => (f j).isSome) ≤ 32 := by
  have := List.countP_le_length (p := fun j => (f j).isSome) (l := List.range 32)
  simpa using this

/-! ### Allocation -/

theorem allocIn_cell (mem : Nat → Bool) : ∀ (l : Nat) (n : Node l) (o nx : Nat), o < 2 ^ shift l → WF l n →
    ∃ n' p nx', allocIn mem l n o nx = some (n', p, nx') ∧ WF l n' ∧ nx ≤ nx' ∧
      (∀ x, x < 2 ^ shift l → x ≠ o → cell l n' x = cell l n x) ∧ (∀ q, p = some q → cell l n' o = some q) ∧
      (p = none → cell l n' o = none ∧ cell l n o = none ∧ ∃ k, nx ≤ k ∧ k < nx' ∧ mem k = false) ∧
      (∀ q, cell l n o = some q → p = some q) := by
  intro l
  induction l with
  | zero =>
    intro n o nx ho _
    rw [shift_zero] at ho
    refine ⟨Leaf.mk (Leaf.id n) (set (Leaf.bits n) o true), some (Leaf.id n, o), nx, ?_, trivial, Nat.le_refl _, ?_, ?_, ?_, ?_⟩
    · show (if 256 ≤ o then none else _) = _
      rw [if_neg (by omega)]
    · intro x _ hx
      rw [cell_zero, cell_zero]
      show (if set (Leaf.bits n) o true x then _ else _) = _
      rw [set_other _ _ hx]
    · intro q hq
      rw [cell_zero]
      show (if set (Leaf.bits n) o true o then _ else _) = _
      rw [set_same, if_pos rfl]; exact hq
    · intro h; cases h
    · intro q hq
      rw [cell_zero] at hq
      split at hq
      · exact hq
      · cases hq
  | succ l ih =>
    intro b o nx ho hw
    obtain ⟨hi, hi32⟩ := index_of_lt ho
    have hm : o % 2 ^ shift l < 2 ^ shift l := Nat.mod_lt _ (pow_pos' _)
    have main : ∀ (c : Node l) (nx0 : Nat) (ref : Nat), WF l c → nx ≤ nx0 →
        (∀ x, x < 2 ^ shift l → cell l c x = match Branch.child b (depthIndex l o) with | none => none | some c => cell l c x) →
        (ref + (if (Branch.child b (depthIndex l o)).isSome then 1 else 0) = Branch.ref b + 1) →
        ∃ n' p nx', ((allocIn mem l c (o % 2 ^ shift l) nx0).bind fun t =>
          some ((Branch.mk (Branch.id b) (set (Branch.child b) (depthIndex l o) (some t.1)) ref : Node (l + 1)), t.2.1, t.2.2)) = some (n', p, nx') ∧ WF (l + 1) n' ∧ nx ≤ nx' ∧
      (∀ x, x < 2 ^ shift (l + 1) → x ≠ o → cell (l + 1) n' x = cell (l + 1) b x) ∧ (∀ q, p = some q → cell (l + 1) n' o = some q) ∧
      (p = none → cell (l + 1) n' o = none ∧ cell (l + 1) b o = none ∧ ∃ k, nx ≤ k ∧ k < nx' ∧ mem k = false) ∧
      (∀ q, cell (l + 1) b o = some q → p = some q) := by
      intro c nx0 ref hwc hnx hc href
      obtain ⟨c', p, nx', he, hw', hle, h1, h2, h3, h4⟩ := ih c (o % 2 ^ shift l) nx0 hm hwc
      have hb : ∀ x, depthIndex l x = depthIndex l o → cell (l + 1) b x = cell l c (x % 2 ^ shift l) := by
        intro x hx
        rw [cell_succ, hx, hc _ (Nat.mod_lt _ (pow_pos' _))]
      have hn : ∀ x, depthIndex l x = depthIndex l o →
          cell (l + 1) (Branch.mk (Branch.id b) (set (Branch.child b) (depthIndex l o) (some c')) ref) x = cell l c' (x % 2 ^ shift l) := by
        intro x hx
        rw [cell_succ, hx]; dsimp only; rw [set_same]
      refine ⟨Branch.mk (Branch.id b) (set (Branch.child b) (depthIndex l o) (some c')) ref, p, nx', by rw [he]; rfl, ⟨?_, ?_⟩, by omega, ?_, ?_, ?_, ?_⟩
      · have := count_set (Branch.child b) (some c') hi32
        have h := hw.1
        dsimp only
        simp only [Option.isSome_some, if_true] at this
        omega
      · intro i d hd
        dsimp only at hd
        by_cases e : i = depthIndex l o
        · subst e; rw [set_same] at hd; cases hd; exact ⟨hi32, hw'⟩
        · rw [set_other _ _ e] at hd; exact hw.2 i d hd
      · intro x hx hne
        by_cases e : depthIndex l x = depthIndex l o
        · rw [hb x e, hn x e]
          exact h1 _ (Nat.mod_lt _ (pow_pos' _)) fun e' => hne (offset_ext hx ho e e')
        · rw [cell_succ, cell_succ]; dsimp only; rw [set_other _ _ e]
      · intro q hq; rw [hn o rfl]; exact h2 q hq
      · intro hp
        obtain ⟨a1, a2, k, a3, a4, a5⟩ := h3 hp
        exact ⟨by rw [hn o rfl]; exact a1, by rw [hb o rfl]; exact a2, k, by omega, a4, a5⟩
      · intro q hq; rw [hb o rfl] at hq; exact h4 q hq
    cases hch : Branch.child b (depthIndex l o) with
    | some c =>
      have := main c nx (Branch.ref b) (hw.2 _ _ hch).2 (Nat.le_refl _) (by intro x _; rw [hch]) (by rw [hch]; simp)
      have e : allocIn mem (l + 1) b o nx = (allocIn mem l c (o % 2 ^ shift l) nx).bind fun t =>
          some ((Branch.mk (Branch.id b) (set (Branch.child b) (depthIndex l o) (some t.1)) (Branch.ref b) : Node (l + 1)), t.2.1, t.2.2) := by
        conv => lhs; unfold allocIn
        rw [hch]; rfl
      rw [e]; exact this
    | none =>
      by_cases hmem : mem nx = true
      · have := main (zero l nx) (nx + 1) (Branch.ref b + 1) (WF.fresh l nx) (by omega) (by intro x _; rw [hch]; exact cell_fresh _ _ _) (by rw [hch]; simp)
        have e : allocIn mem (l + 1) b o nx = (allocIn mem l (zero l nx) (o % 2 ^ shift l) (nx + 1)).bind fun t =>
            some ((Branch.mk (Branch.id b) (set (Branch.child b) (depthIndex l o) (some t.1)) (Branch.ref b + 1) : Node (l + 1)), t.2.1, t.2.2) := by
          conv => lhs; unfold allocIn
          rw [hch]; dsimp only; rw [if_pos hmem]; rfl
        rw [e]; exact this
      · have e : allocIn mem (l + 1) b o nx = some (b, none, nx + 1) := by
          conv => lhs; unfold allocIn
          rw [hch]; dsimp only; rw [if_neg hmem]
        have hno : cell (l + 1) b o = none := by rw [cell_succ, hch]
        refine ⟨b, none, nx + 1, e, hw, by omega, fun _ _ _ => rfl, (by intro q h; cases h), fun _ => ⟨hno, hno, nx, Nat.le_refl _, by omega, by simpa using hmem⟩, ?_⟩
        intro q hq; rw [hno] at hq; cases hq

/-- The content of the tree behind a root. -/
def Root.get (r : Root) (o : Nat) : Option Ptr :=
  match r with
  | ⟨_, none, _, _⟩ => none
  | ⟨l, some n, _, _⟩ => if o < 2 ^ shift l then cell l n o else none

/-- What the functions keep. -/
structure Good (r : Root) : Prop where
  level : r.level ≤ 11
  null : r.node = none → r.level = 0
  wf : ∀ l n nx fr, r = ⟨l, some n, nx, fr⟩ → WF l n

theorem Good.mk' {l n nx fr} (h : l ≤ 11) (hw : WF l n) : Good ⟨l, some n, nx, fr⟩ :=
  ⟨h, (by intro h; cases h), by intro l' n' nx' fr' e; cases e; exact hw⟩

theorem Good.none' {nx fr} : Good ⟨0, none, nx, fr⟩ := ⟨Nat.zero_le _, fun _ => rfl, by intro l' n' nx' fr' e; cases e⟩

theorem get_some {l n nx fr o} : Root.get ⟨l, some n, nx, fr⟩ o = if o < 2 ^ shift l then cell l n o else none := rfl
theorem get_none {l nx fr o} : Root.get ⟨l, none, nx, fr⟩ o = none := rfl

theorem depthIndex_zero {l o : Nat} (h : o < 2 ^ shift l) : depthIndex l o = 0 := by
  unfold depthIndex; rw [Nat.div_eq_of_lt h]

theorem grow_get {l n nx fr nx' fr'} (o : Nat) :
    Root.get ⟨l + 1, some (Branch.mk nx (set (fun _ => none) 0 (some n)) 1), nx', fr'⟩ o = Root.get ⟨l, some n, nx, fr⟩ o := by
  rw [get_some, get_some]
  by_cases h : o < 2 ^ shift l
  · rw [if_pos h, if_pos (by rw [pow_succ_shift]; omega), cell_succ]
    dsimp only
    rw [depthIndex_zero h, set_same]; dsimp only
    rw [Nat.mod_eq_of_lt h]
  · rw [if_neg h]
    split
    · rename_i h2
      rw [cell_succ]; dsimp only
      have : depthIndex l o ≠ 0 := by
        rw [(index_of_lt h2).1]
        exact fun e => h (by
          rcases (Nat.div_eq_zero_iff).1 e with h3 | h3
          · have := pow_pos' (shift l); omega
          · exact h3)
      rw [set_other _ _ this]
    · rfl

theorem grow_wf {l n nx} (hw : WF l n) : WF (l + 1) (Branch.mk nx (set (fun _ => none) 0 (some n)) 1) := by
  refine ⟨?_, fun i c h => ?_⟩
  · have := count_set (fun _ => (none : Option (Node l))) (some n) (show 0 < 32 by omega)
    dsimp only
    simp at this
    rw [this]
  · dsimp only at h
    by_cases e : i = 0
    · subst e; rw [set_same] at h; cases h; exact ⟨by omega, hw⟩
    · rw [set_other _ _ e] at h; cases h

theorem extend_ok (mem : Nat → Bool) (o : Nat) (ho : o < 2 ^ 63) : ∀ (fuel : Nat) (r : Root), Good r →
    (12 - r.level) + (if r.node.isSome then 0 else 1) < fuel →
    ∃ r' ok, extend mem fuel r o = some (r', ok) ∧ Good r' ∧ (∀ x, r'.get x = r.get x) ∧ r.next ≤ r'.next ∧
      (ok = true → ∃ l n nx fr, r' = ⟨l, some n, nx, fr⟩ ∧ o < 2 ^ shift l) ∧
      (ok = false → r'.get o = none ∧ ∃ k, r.next ≤ k ∧ k < r'.next ∧ mem k = false) := by
  intro fuel
  induction fuel with
  | zero => intro r _ h; omega
  | succ fuel ih =>
    rintro ⟨l, n | n, nx, fr⟩ hg hf
    · have hl : l = 0 := hg.null rfl
      subst hl
      by_cases hm : mem nx = true
      · obtain ⟨r', ok, he, h1, h2, h3, h4, h5⟩ := ih ⟨0, some (zero 0 nx), nx + 1, fr⟩ (Good.mk' (by omega) trivial) (by simp at hf ⊢; omega)
        refine ⟨r', ok, ?_, h1, ?_, (by dsimp only at h3 ⊢; omega), h4, ?_⟩
        · show (if mem nx then extend mem fuel ⟨0, some (zero 0 nx), nx + 1, fr⟩ o else _) = _
          rw [if_pos hm]; exact he
        · intro x; rw [h2, get_some, get_none]; split
          · exact cell_fresh _ _ _
          · rfl
        · intro h; obtain ⟨g, k, a, b, c⟩ := h5 h; exact ⟨g, k, by dsimp only at a ⊢; omega, b, c⟩
      · refine ⟨⟨0, none, nx + 1, fr⟩, false, ?_, Good.none', fun x => rfl, by dsimp only; omega, (by intro h; cases h), fun _ => ⟨rfl, nx, Nat.le_refl _, by dsimp only; omega, by simpa using hm⟩⟩
        show (if mem nx then extend mem fuel ⟨0, some (zero 0 nx), nx + 1, fr⟩ o else _) = _
        rw [if_neg hm]
    · have hw := hg.wf _ _ _ _ rfl
      have hl := hg.level
      dsimp only at hl
      by_cases hlt : o.log2 < shift l
      · refine ⟨⟨l, some n, nx, fr⟩, true, ?_, hg, fun _ => rfl, Nat.le_refl _, fun _ => ⟨l, n, nx, fr, rfl, (log2_lt_shift (shift_pos l)).1 hlt⟩, by intro h; cases h⟩
        show (if o.log2 < shift l then _ else _) = _
        rw [if_pos hlt]
      · by_cases hm : mem nx = true
        · have hl' : l + 1 ≤ 11 := by
            refine Nat.le_of_not_lt fun h => hlt ?_
            have : l = 11 := by omega
            subst this
            exact (log2_lt_shift (shift_pos 11)).2 ho
          obtain ⟨r', ok, he, h1, h2, h3, h4, h5⟩ := ih ⟨l + 1, some (Branch.mk nx (set (fun _ => none) 0 (some n)) 1), nx + 1, fr⟩
            (Good.mk' hl' (grow_wf hw)) (by simp at hf ⊢; omega)
          refine ⟨r', ok, ?_, h1, ?_, (by dsimp only at h3 ⊢; omega), h4, ?_⟩
          · show (if o.log2 < shift l then _ else if mem nx then _ else _) = _
            rw [if_neg hlt, if_pos hm]; exact he
          · intro x; rw [h2]; exact grow_get x
          · intro h; obtain ⟨g, k, a, b, c⟩ := h5 h; exact ⟨g, k, by dsimp only at a ⊢; omega, b, c⟩
        · refine ⟨⟨l, some n, nx + 1, fr⟩, false, ?_, Good.mk' hl hw, fun x => rfl, by dsimp only; omega, (by intro h; cases h), fun _ => ⟨by rw [get_some, if_neg (fun h => hlt ((log2_lt_shift (shift_pos l)).2 h))], nx, Nat.le_refl _, by dsimp only; omega, by simpa using hm⟩⟩
          show (if o.log2 < shift l then _ else if mem nx then _ else _) = _
          rw [if_neg hlt, if_neg hm]

theorem alloc_ok (mem : Nat → Bool) {r : Root} (hg : Good r) {o : Nat} (ho : o < 2 ^ 63) :
    ∃ r' p, alloc mem r o = some (r', p) ∧ Good r' ∧ (∀ x, x ≠ o → r'.get x = r.get x) ∧ (∀ q, p = some q → r'.get o = some q) ∧
      (p = none → r'.get o = none ∧ r.get o = none ∧ ∃ k, r.next ≤ k ∧ k < r'.next ∧ mem k = false) ∧ (∀ q, r.get o = some q → p = some q) := by
  obtain ⟨r1, ok, he, h1, h2, h3, h4, h5⟩ := extend_ok mem o ho 64 r hg (by split <;> omega)
  unfold alloc
  rw [he]
  cases ok with
  | false =>
    refine ⟨r1, none, by rfl, h1, fun x _ => h2 x, (by intro q h; cases h), fun _ => ⟨(h5 rfl).1, (h2 o).symm.trans (h5 rfl).1, (h5 rfl).2⟩, ?_⟩
    intro q hq
    rw [← h2 o, (h5 rfl).1] at hq; cases hq
  | true =>
    obtain ⟨l, n, nx, fr, e, hlt⟩ := h4 rfl
    subst e
    have hw := h1.wf _ _ _ _ rfl
    obtain ⟨n', p, nx', e1, hw', hle, c1, c2, c3, c4⟩ := allocIn_cell mem l n o nx hlt hw
    refine ⟨⟨l, some n', nx', fr⟩, p, ?_, Good.mk' h1.level hw', ?_, ?_, ?_, ?_⟩
    · show ((allocIn mem l n o nx).bind fun t => some ((⟨l, some t.1, t.2.2, fr⟩ : Root), t.2.1)) = _
      rw [e1]; rfl
    · intro x hx
      rw [← h2, get_some, get_some]
      split
      · rename_i h; exact c1 x h hx
      · rfl
    · intro q hq; rw [get_some, if_pos hlt]; exact c2 q hq
    · intro hp
      obtain ⟨a1, a2, k, a3, a4, a5⟩ := c3 hp
      refine ⟨by rw [get_some, if_pos hlt]; exact a1, by rw [← h2, get_some, if_pos hlt]; exact a2, k, ?_, a4, a5⟩
      dsimp only at h3; omega
    · intro q hq
      rw [← h2, get_some, if_pos hlt] at hq
      exact c4 q hq

end Bfdev.Radix

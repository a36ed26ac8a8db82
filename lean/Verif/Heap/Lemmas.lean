import Verif.Heap.Spec
import Verif.Scan.Props
/-!
Lemmas on heaps.
-/
namespace Bfdev.Heap

theorem adopt_fields (s : State) (node par : Addr) :
    (adopt s node par).left = s.left ∧ (adopt s node par).right = s.right ∧ (adopt s node par).root = s.root ∧ (adopt s node par).count = s.count ∧
    ∀ x, (adopt s node par).parent x = if (x = s.right node ∨ x = s.left node) ∧ x ≠ 0 then par else s.parent x := by
  unfold adopt
  by_cases hl : s.left node = 0 <;> by_cases hr : s.right node = 0 <;>
    simp only [hl, hr, ne_eq, not_true_eq_false, not_false_eq_true, if_true, if_false, State.setParent, upd, true_and] <;> intro x <;> grind

/-- The other child of `par`. -/
def sib (s : State) (par node : Addr) : Addr := if s.left par = node then s.right par else s.left par

theorem exchange_fields (s : State) (par node : Addr) (hne : node ≠ par) :
    (exchange s par node).root = s.root ∧ (exchange s par node).count = s.count ∧
    (∀ x, (exchange s par node).left x = if x = node then (if s.left par = node then par else s.left par) else s.left x) ∧
    (∀ x, (exchange s par node).right x = if x = node then (if s.left par = node then s.right par else par) else s.right x) ∧
    ∀ x, (exchange s par node).parent x = if x = sib s par node ∧ x ≠ 0 then node else s.parent x := by
  unfold exchange sib
  have hne' : par ≠ node := Ne.symm hne
  by_cases h : s.left par = node
  · by_cases hr : s.right par = 0 <;> simp only [h, hr, State.setLeft, State.setRight, State.setParent, upd, if_true, hne', if_false, ne_eq, not_true_eq_false,
      not_false_eq_true, true_and] <;> refine ⟨fun x => ?_, fun x => ?_, fun x => ?_⟩ <;> grind
  · simp only [if_neg h]
    by_cases hr : s.left par = 0 <;> simp only [hr, State.setLeft, State.setRight, State.setParent, upd, if_true, hne', if_false, ne_eq, not_true_eq_false,
      not_false_eq_true, true_and] <;> refine ⟨fun x => ?_, fun x => ?_, fun x => ?_⟩ <;> grind

theorem hoist_fields (s : State) (par node : Addr) (hg : s.parent par ≠ node) :
    (hoist s par node).count = s.count ∧ (hoist s par node).root = (if s.parent par = 0 then node else s.root) ∧
    (∀ x, (hoist s par node).left x = if x ≠ 0 ∧ x = s.parent par ∧ s.left x = par then node else s.left x) ∧
    (∀ x, (hoist s par node).right x = if x ≠ 0 ∧ x = s.parent par ∧ s.left x ≠ par then node else s.right x) ∧
    ∀ x, (hoist s par node).parent x = if x = node then s.parent par else s.parent x := by
  unfold hoist
  by_cases h0 : s.parent par = 0
  · simp only [h0, State.setParent, upd, if_true, true_and]
    refine ⟨fun x => ?_, fun x => ?_, fun x => ?_⟩ <;> grind
  · by_cases hl : s.left (s.parent par) = par <;> simp only [h0, hl, State.setLeft, State.setRight, State.setParent, upd, if_true, if_false, true_and] <;>
      refine ⟨fun x => ?_, fun x => ?_, fun x => ?_⟩ <;> grind

/-- What `parent_swap` does to memory. -/
theorem swap_fields (s : State) (par node : Addr) (hne : node ≠ par) (hg : s.parent par ≠ node) (hp0 : par ≠ 0) (hn0 : node ≠ 0)
    (hl : s.left node ≠ par) (hr : s.right node ≠ par) (hs : sib s par node ≠ par) (hs' : sib s par node ≠ node) (hgl : s.parent par ≠ par) :
    (parentSwap s par node).count = s.count ∧ (parentSwap s par node).root = (if s.parent par = 0 then node else s.root) ∧
    (∀ x, (parentSwap s par node).left x = if x = par then s.left node else if x = node then (if s.left par = node then par else s.left par)
      else if x ≠ 0 ∧ x = s.parent par ∧ s.left x = par then node else s.left x) ∧
    (∀ x, (parentSwap s par node).right x = if x = par then s.right node else if x = node then (if s.left par = node then s.right par else par)
      else if x ≠ 0 ∧ x = s.parent par ∧ s.left x ≠ par then node else s.right x) ∧
    (∀ x, (parentSwap s par node).parent x = if x = par then node else if x = node then s.parent par else if x = sib s par node ∧ x ≠ 0 then node
      else if (x = s.right node ∨ x = s.left node) ∧ x ≠ 0 then par else s.parent x) := by
  obtain ⟨a1, a2, a3, a4, a5⟩ := adopt_fields s node par
  unfold parentSwap
  dsimp only
  generalize adopt s node par = s1 at a1 a2 a3 a4 a5
  obtain ⟨b1, b2, b3, b4, b5⟩ := exchange_fields s1 par node hne
  have hsib : sib s1 par node = sib s par node := by unfold sib; rw [a1, a2]
  rw [hsib] at b5
  rw [a1] at b3 b4
  rw [a2] at b4
  generalize exchange s1 par node = s2 at b1 b2 b3 b4 b5
  have e1 : s1.parent par = s.parent par := by rw [a5, if_neg]; grind
  have e2 : s2.parent par = s.parent par := by rw [b5, if_neg, e1]; grind
  obtain ⟨c1, c2, c3, c4, c5⟩ := hoist_fields s2 par node (by rw [e2]; exact hg)
  rw [e2] at c2 c3 c4 c5
  generalize hoist s2 par node = s3 at c1 c2 c3 c4 c5
  simp only [State.setNode, State.setParent, State.setLeft, State.setRight, upd, a1, a2]
  refine ⟨by rw [c1, b2, a4], by rw [c2, b1, a3], fun x => ?_, fun x => ?_, fun x => ?_⟩
  · rw [c3, b3]; grind
  · rw [c4, b4, b3]; grind
  · rw [c5, b5, a5]; grind

/-- Exchange of number `i` with its parent. -/
def swp (g : Nat → Addr) (i : Nat) : Nat → Addr := fun k => if k = i / 2 then g i else if k = i then g (i / 2) else g k

theorem Shape.ne {s : State} {g : Nat → Addr} (h : Shape s g) {i j : Nat} (hi : g i ≠ 0) (hij : j ≠ i) : g j ≠ g i :=
  fun e => hij (h.inj i j hi e.symm).symm

theorem Shape.zero {s : State} {g : Nat → Addr} (h : Shape s g) : g 0 = 0 :=
  Decidable.byContradiction fun h0 => by have := (h.number 0).1 h0; omega

/-- The nodes not in the heap keep their fields. -/
def Frame (s s' : State) (g : Nat → Addr) : Prop := ∀ x, (∀ k, g k ≠ x) → s'.left x = s.left x ∧ s'.right x = s.right x ∧ s'.parent x = s.parent x

theorem swap_shape {s : State} {g : Nat → Addr} (h : Shape s g) {i : Nat} (hi : g i ≠ 0) (hp : g (i / 2) ≠ 0) :
    Shape (parentSwap s (g (i / 2)) (g i)) (swp g i) ∧ (parentSwap s (g (i / 2)) (g i)).count = s.count ∧ Frame s (parentSwap s (g (i / 2)) (g i)) g := by
  have hn := (h.number i).1 hi
  have hpn := (h.number (i / 2)).1 hp
  generalize hpe : i / 2 = p at *
  have hip : i = 2 * p ∨ i = 2 * p + 1 := by omega
  have e1 := h.left p hp
  have e2 := h.right p hp
  have e3 := h.parent p hp
  have e4 := h.left i hi
  have e5 := h.right i hi
  have hsib : sib s (g p) (g i) = if i = 2 * p then g (2 * p + 1) else g (2 * p) := by
    rw [sib, e1, e2]
    by_cases h2 : i = 2 * p
    · rw [if_pos h2, if_pos (by rw [h2])]
    · rw [if_neg h2, if_neg (h.ne hi (Ne.symm h2))]
  obtain ⟨c, r, l', r', p'⟩ := swap_fields s (g p) (g i) (h.ne hp (by omega)) (by rw [e3]; exact h.ne hi (by omega)) hp hi
    (by rw [e4]; exact h.ne hp (by omega)) (by rw [e5]; exact h.ne hp (by omega))
    (by rw [hsib]; split <;> exact h.ne hp (by omega)) (by rw [hsib]; split <;> exact h.ne hi (by omega)) (by rw [e3]; exact h.ne hp (by omega))
  generalize parentSwap s (g p) (g i) = t at c r l' r' p'
  rw [e3] at r l' r' p'
  rw [e1] at l' r'
  rw [e4] at l'
  rw [e5] at r'
  rw [e2] at r'
  rw [e4, e5, hsib] at p'
  have q : ∀ k, swp g i k = if k = p then g i else if k = i then g p else g k := by intro k; unfold swp; rw [hpe]
  have z0 := h.zero
  refine ⟨⟨fun k => ?_, fun j k hj e => ?_, ?_, fun k hk => ?_, fun k hk => ?_, fun k hk => ?_⟩, c, fun x hx => ?_⟩
  · rw [q, c]
    split
    · next e => subst e; exact ⟨fun _ => hpn, fun _ => hi⟩
    · split
      · next e => subst e; exact ⟨fun _ => hn, fun _ => hp⟩
      · exact h.number k
  · rw [q] at hj e
    rw [q] at e
    by_cases a1 : j = p <;> by_cases a2 : k = p
    · omega
    · simp only [if_pos a1, if_neg a2] at e hj
      split at e
      · have := h.inj _ _ hi e; omega
      · have := h.inj _ _ hi e; omega
    · simp only [if_neg a1, if_pos a2] at e hj
      split at e
      · have := h.inj _ _ hp e; omega
      · have := h.inj _ _ hi e.symm; omega
    · simp only [if_neg a1, if_neg a2] at e hj
      split at e
      · split at e
        · omega
        · have := h.inj _ _ hp e; omega
      · next hji =>
        rw [if_neg hji] at hj
        split at e
        · have := h.inj _ _ hp e.symm; omega
        · exact h.inj _ _ hj e
  · rw [r, h.root, q]
    by_cases h1 : p = 1
    · rw [if_pos h1.symm, if_pos (by rw [h1]; exact z0)]
    · rw [if_neg ((h.number (p / 2)).2 (by omega)), if_neg (Ne.symm h1), if_neg (by omega)]
  · rw [l', q k]
    rw [q] at hk
    by_cases a1 : k = p
    · subst a1
      rw [if_pos rfl, if_neg (h.ne hp (by omega)), if_pos rfl, q]
      by_cases h2 : i = 2 * k
      · rw [if_pos (by rw [h2]), if_neg (by omega), if_pos h2.symm]
      · rw [if_neg (h.ne hi (Ne.symm h2)), if_neg (by omega), if_neg (Ne.symm h2)]
    · rw [if_neg a1] at hk ⊢
      by_cases a2 : k = i
      · subst a2
        rw [if_pos rfl, if_pos rfl, q, if_neg (by omega), if_neg (by omega)]
      · rw [if_neg a2] at hk ⊢
        rw [if_neg (h.ne hp a1), if_neg (h.ne hi a2), h.left k hk, q]
        by_cases a3 : 2 * k = p
        · rw [if_pos ⟨hk, by congr 1; omega, by rw [a3]⟩, if_pos a3]
        · rw [if_neg (by rintro ⟨-, -, hh⟩; exact h.ne hp a3 hh), if_neg a3, if_neg (by omega)]
  · rw [r', q k]
    rw [q] at hk
    by_cases a1 : k = p
    · subst a1
      rw [if_pos rfl, if_neg (h.ne hp (by omega)), if_pos rfl, q]
      by_cases h2 : i = 2 * k
      · rw [if_pos (by rw [h2]), if_neg (by omega), if_neg (by omega)]
      · rw [if_neg (h.ne hi (Ne.symm h2)), if_neg (by omega), if_pos (by omega)]
    · rw [if_neg a1] at hk ⊢
      by_cases a2 : k = i
      · subst a2
        rw [if_pos rfl, if_pos rfl, q, if_neg (by omega), if_neg (by omega)]
      · rw [if_neg a2] at hk ⊢
        rw [if_neg (h.ne hp a1), if_neg (h.ne hi a2), h.left k hk, h.right k hk, q]
        by_cases a3 : 2 * k + 1 = p
        · rw [if_pos ⟨hk, by congr 1; omega, h.ne hp (by omega)⟩, if_pos a3]
        · rw [if_neg, if_neg a3, if_neg (by omega)]
          rintro ⟨-, h1, h2⟩
          have h3 := h.inj _ _ hk h1
          have : p = 2 * k := by omega
          exact h2 (by rw [this])
  · rw [p', q k]
    rw [q] at hk
    by_cases a1 : k = p
    · subst a1
      rw [if_pos rfl, if_neg (h.ne hp (by omega)), if_pos rfl, q, if_neg (by omega), if_neg (by omega)]
    · rw [if_neg a1] at hk ⊢
      by_cases a2 : k = i
      · subst a2
        rw [if_pos rfl, if_pos rfl, q, hpe, if_pos rfl]
      · rw [if_neg a2] at hk ⊢
        rw [if_neg (h.ne hp a1), if_neg (h.ne hi a2), h.parent k hk, q]
        by_cases a3 : k / 2 = p
        · rw [if_pos a3, if_pos]
          refine ⟨?_, hk⟩
          split <;> congr 1 <;> omega
        · rw [if_neg a3, if_neg]
          · by_cases a4 : k / 2 = i
            · rw [if_pos a4, if_pos]
              refine ⟨?_, hk⟩
              rcases (by omega : k = 2 * i + 1 ∨ k = 2 * i) with e | e
              · exact Or.inl (by rw [e])
              · exact Or.inr (by rw [e])
            · rw [if_neg a4, if_neg]
              rintro ⟨e | e, -⟩
              · have := h.inj _ _ hk e; omega
              · have := h.inj _ _ hk e; omega
          · rintro ⟨e, -⟩
            split at e
            · have := h.inj _ _ hk e; omega
            · have := h.inj _ _ hk e; omega
  · have x1 : x ≠ g p := Ne.symm (hx p)
    have x2 : x ≠ g i := Ne.symm (hx i)
    refine ⟨?_, ?_, ?_⟩
    · rw [l', if_neg x1, if_neg x2, if_neg (fun hh => hx _ hh.2.1.symm)]
    · rw [r', if_neg x1, if_neg x2, if_neg (fun hh => hx _ hh.2.1.symm)]
    · rw [p', if_neg x1, if_neg x2, if_neg, if_neg]
      · rintro ⟨e | e, -⟩
        · exact hx _ e.symm
        · exact hx _ e.symm
      · rintro ⟨e, -⟩
        split at e
        · exact hx _ e.symm
        · exact hx _ e.symm

/-- The same nodes, numbered in another way. -/
def Rng (g g' : Nat → Addr) : Prop := ∀ x, (∃ k, g k = x) ↔ ∃ k, g' k = x

theorem Rng.refl (g : Nat → Addr) : Rng g g := fun _ => Iff.rfl
theorem Rng.trans {g1 g2 g3 : Nat → Addr} (h : Rng g1 g2) (h' : Rng g2 g3) : Rng g1 g3 := fun x => (h x).trans (h' x)

theorem Frame.trans {s1 s2 s3 : State} {g g' : Nat → Addr} (h : Frame s1 s2 g) (hr : Rng g g') (h' : Frame s2 s3 g') : Frame s1 s3 g := by
  intro x hx
  obtain ⟨a, b, c⟩ := h x hx
  obtain ⟨a', b', c'⟩ := h' x (fun k hk => by obtain ⟨j, hj⟩ := (hr x).2 ⟨k, hk⟩; exact hx j hj)
  exact ⟨a'.trans a, b'.trans b, c'.trans c⟩

theorem swp_rng (g : Nat → Addr) (i : Nat) : Rng g (swp g i) := by
  intro x
  constructor
  · rintro ⟨k, rfl⟩
    by_cases h1 : k = i / 2
    · by_cases h2 : i = i / 2
      · exact ⟨i / 2, by rw [swp, if_pos rfl, h1, ← h2]⟩
      · exact ⟨i, by rw [swp, if_neg h2, if_pos rfl, h1]⟩
    · by_cases h2 : k = i
      · exact ⟨i / 2, by rw [swp, if_pos rfl, h2]⟩
      · exact ⟨k, by rw [swp, if_neg h1, if_neg h2]⟩
  · rintro ⟨k, rfl⟩
    unfold swp
    split
    · exact ⟨i, rfl⟩
    · split
      · exact ⟨_, rfl⟩
      · exact ⟨_, rfl⟩

theorem Order.le_of_not {cmp : Addr → Addr → Int} (ho : Order cmp) {a b : Addr} (h : ¬ cmp a b < 0) : cmp b a ≤ 0 := by
  rw [ho.flip] at h; omega

/-- Ordered except that number `i` may be less than its parent. -/
def Up (cmp : Addr → Addr → Int) (g : Nat → Addr) (i : Nat) : Prop :=
  (∀ k, g k ≠ 0 → g (k / 2) ≠ 0 → k ≠ i → cmp (g (k / 2)) (g k) ≤ 0) ∧ ∀ k, g k ≠ 0 → k / 2 = i → g (i / 2) ≠ 0 → cmp (g (i / 2)) (g k) ≤ 0

theorem up_swap {cmp : Addr → Addr → Int} (ho : Order cmp) {s : State} {g : Nat → Addr} (h : Shape s g) {i : Nat} (hi : g i ≠ 0) (hp : g (i / 2) ≠ 0)
    (hu : Up cmp g i) (hlt : cmp (g i) (g (i / 2)) < 0) : Up cmp (swp g i) (i / 2) := by
  obtain ⟨h1, h2⟩ := hu
  have hpn := (h.number (i / 2)).1 hp
  have q : ∀ k, swp g i k = if k = i / 2 then g i else if k = i then g (i / 2) else g k := fun k => rfl
  refine ⟨fun k hk hk2 hkp => ?_, fun k hk hkp hp2 => ?_⟩
  · rw [q k, if_neg hkp] at hk ⊢
    by_cases a1 : k = i
    · subst a1
      rw [q, if_pos rfl, if_pos rfl]; omega
    · rw [if_neg a1] at hk ⊢
      rw [q] at hk2 ⊢
      by_cases a2 : k / 2 = i / 2
      · rw [if_pos a2]
        have := h1 k hk (by rw [a2]; exact hp) a1
        rw [a2] at this
        exact ho.trans _ _ _ (by omega) this
      · rw [if_neg a2] at hk2 ⊢
        by_cases a3 : k / 2 = i
        · rw [if_pos a3]; exact h2 k hk a3 hp
        · rw [if_neg a3] at hk2 ⊢; exact h1 k hk hk2 a1
  · rw [q (i / 2 / 2), if_neg (by omega), if_neg (by omega)] at hp2 ⊢
    have hpe := h1 (i / 2) hp hp2 (by omega)
    rw [q k, if_neg (by omega)] at hk ⊢
    by_cases a1 : k = i
    · rw [if_pos a1]; exact hpe
    · rw [if_neg a1] at hk ⊢
      have := h1 k hk (by rw [hkp]; exact hp) a1
      rw [hkp] at this
      exact ho.trans _ _ _ hpe this

theorem fixup_ok {cmp : Addr → Addr → Int} (ho : Order cmp) : ∀ (fuel : Nat) (s : State) (g : Nat → Addr) (i : Nat), Shape s g → g i ≠ 0 → Up cmp g i → i ≤ fuel →
    ∃ s' g', fixup cmp fuel s (g i) = some s' ∧ Shape s' g' ∧ Ordered cmp g' ∧ Rng g g' ∧ s'.count = s.count ∧ Frame s s' g := by
  intro fuel
  induction fuel with
  | zero => intro s g i h hi _ hf; have := (h.number i).1 hi; omega
  | succ fuel ih =>
    intro s g i h hi hu hf
    rw [fixup]
    rw [h.parent i hi]
    by_cases hp : g (i / 2) = 0
    · rw [if_pos hp]
      refine ⟨s, g, rfl, h, fun k hk hk2 => hu.1 k hk hk2 ?_, Rng.refl g, rfl, fun x _ => ⟨rfl, rfl, rfl⟩⟩
      intro e; rw [e] at hk2; exact hk2 hp
    · rw [if_neg hp]
      by_cases hc : cmp (g i) (g (i / 2)) ≥ 0
      · rw [if_pos hc]
        refine ⟨s, g, rfl, h, fun k hk hk2 => ?_, Rng.refl g, rfl, fun x _ => ⟨rfl, rfl, rfl⟩⟩
        by_cases e : k = i
        · rw [e]; exact ho.le_of_not (by omega)
        · exact hu.1 k hk hk2 e
      · rw [if_neg hc]
        obtain ⟨w1, w2, w3⟩ := swap_shape h hi hp
        have hpn := (h.number (i / 2)).1 hp
        have e : swp g i (i / 2) = g i := if_pos rfl
        obtain ⟨s', g', e1, e2, e3, e4, e5, e6⟩ := ih _ (swp g i) (i / 2) w1 (by rw [e]; exact hi) (up_swap ho h hi hp hu (by omega)) (by omega)
        rw [e] at e1
        exact ⟨s', g', e1, e2, e3, (swp_rng g i).trans e4, e5.trans w2, w3.trans (swp_rng g i) e6⟩

/-- Ordered except that number `i` may be greater than its children. -/
def Down (cmp : Addr → Addr → Int) (g : Nat → Addr) (i : Nat) : Prop :=
  (∀ k, g k ≠ 0 → g (k / 2) ≠ 0 → k / 2 ≠ i → cmp (g (k / 2)) (g k) ≤ 0) ∧ ∀ k, g k ≠ 0 → k / 2 = i → g (i / 2) ≠ 0 → cmp (g (i / 2)) (g k) ≤ 0

theorem down_swap {cmp : Addr → Addr → Int} (ho : Order cmp) {s : State} {g : Nat → Addr} (h : Shape s g) {c : Nat} (hc : g c ≠ 0) (hi : g (c / 2) ≠ 0)
    (hd : Down cmp g (c / 2)) (hge : ¬ cmp (g (c / 2)) (g c) < 0) (hmin : ∀ k, g k ≠ 0 → k / 2 = c / 2 → cmp (g c) (g k) ≤ 0) : Down cmp (swp g c) c := by
  obtain ⟨h1, h2⟩ := hd
  have hin := (h.number (c / 2)).1 hi
  have q : ∀ k, swp g c k = if k = c / 2 then g c else if k = c then g (c / 2) else g k := fun k => rfl
  refine ⟨fun k hk hk2 hkc => ?_, fun k hk hkc _ => ?_⟩
  · rw [q (k / 2)] at hk2 ⊢
    by_cases a1 : k = c
    · subst a1
      rw [q k, if_pos rfl, if_neg (by omega), if_pos rfl]
      exact ho.le_of_not hge
    · by_cases a2 : k = c / 2
      · rw [q k, if_pos a2] 
        rw [if_neg (by omega), if_neg hkc, a2] at hk2 ⊢
        exact h2 c hc rfl hk2
      · rw [q k, if_neg a2, if_neg a1] at hk ⊢
        by_cases a3 : k / 2 = c / 2
        · rw [if_pos a3]; exact hmin k hk a3
        · rw [if_neg a3, if_neg hkc] at hk2 ⊢
          exact h1 k hk hk2 a3
  · rw [q (c / 2), if_pos rfl]
    rw [q k, if_neg (by omega), if_neg (by omega)] at hk ⊢
    have := h1 k hk (by rw [hkc]; exact hc) (by omega)
    rw [hkc] at this
    exact this

theorem siftDown_ok {cmp : Addr → Addr → Int} (ho : Order cmp) : ∀ (fuel : Nat) (s : State) (g : Nat → Addr) (i : Nat), Shape s g → g i ≠ 0 → Down cmp g i → s.count < fuel + i →
    ∃ s' g', siftDown cmp fuel s (g i) = some s' ∧ Shape s' g' ∧ Ordered cmp g' ∧ Rng g g' ∧ s'.count = s.count ∧ Frame s s' g := by
  intro fuel
  induction fuel with
  | zero => intro s g i h hi _ hf; have := (h.number i).1 hi; omega
  | succ fuel ih =>
    intro s g i h hi hd hf
    have hin := (h.number i).1 hi
    rw [siftDown, successor]
    rw [h.left i hi, h.right i hi]
    have stop : (∀ k, g k ≠ 0 → k / 2 = i → cmp (g i) (g k) ≤ 0) →
        ∃ s' g', some s = some s' ∧ Shape s' g' ∧ Ordered cmp g' ∧ Rng g g' ∧ s'.count = s.count ∧ Frame s s' g := by
      intro hk
      refine ⟨s, g, rfl, h, fun k h1 h2 => ?_, Rng.refl g, rfl, fun x _ => ⟨rfl, rfl, rfl⟩⟩
      by_cases e : k / 2 = i
      · rw [e]; exact hk k h1 e
      · exact hd.1 k h1 h2 e
    have step : ∀ c, g c ≠ 0 → c / 2 = i → (∀ k, g k ≠ 0 → k / 2 = i → cmp (g c) (g k) ≤ 0) →
        ∃ s' g', (if cmp (g i) (g c) < 0 then some s else siftDown cmp fuel (parentSwap s (g i) (g c)) (g i)) = some s' ∧ Shape s' g' ∧ Ordered cmp g' ∧ Rng g g' ∧
          s'.count = s.count ∧ Frame s s' g := by
      intro c hc hci hmin
      by_cases hlt : cmp (g i) (g c) < 0
      · rw [if_pos hlt]
        exact stop (fun k h1 h2 => ho.trans _ _ _ (by omega) (hmin k h1 h2))
      · rw [if_neg hlt]
        subst hci
        obtain ⟨w1, w2, w3⟩ := swap_shape h hc hi
        have e : swp g c c = g (c / 2) := by rw [swp, if_neg (by omega), if_pos rfl]
        obtain ⟨s', g', e1, e2, e3, e4, e5, e6⟩ := ih _ (swp g c) c w1 (by rw [e]; exact hi) (down_swap ho h hc hi hd hlt hmin) (by rw [w2]; omega)
        rw [e] at e1
        exact ⟨s', g', e1, e2, e3, (swp_rng g c).trans e4, e5.trans w2, w3.trans (swp_rng g c) e6⟩
    by_cases hl : g (2 * i) = 0
    · have hr : g (2 * i + 1) = 0 := by
        refine Decidable.byContradiction fun hr => ?_
        have h1 := (h.number (2 * i + 1)).1 hr
        exact (h.number (2 * i)).2 (by omega) hl
      rw [if_pos ⟨hl, hr⟩]
      refine stop (fun k h1 h2 => ?_)
      rcases (by omega : k = 2 * i ∨ k = 2 * i + 1) with rfl | rfl
      · exact absurd hl h1
      · exact absurd hr h1
    · rw [if_neg (fun hh => hl hh.1)]
      by_cases hr : g (2 * i + 1) = 0
      · rw [if_pos hr, Option.bind_some]
        refine step (2 * i) hl (by omega) (fun k h1 h2 => ?_)
        rcases (by omega : k = 2 * i ∨ k = 2 * i + 1) with rfl | rfl
        · exact ho.le_of_not (fun hh => by have := (ho.flip _ _).1 hh; omega)
        · exact absurd hr h1
      · rw [if_neg hr, if_neg hl]
        have self : ∀ a, cmp a a ≤ 0 := fun a => ho.le_of_not (fun hh => by have := (ho.flip _ _).1 hh; omega)
        by_cases hc : cmp (g (2 * i)) (g (2 * i + 1)) < 0
        · rw [if_pos hc, Option.bind_some]
          refine step (2 * i) hl (by omega) (fun k h1 h2 => ?_)
          rcases (by omega : k = 2 * i ∨ k = 2 * i + 1) with rfl | rfl
          · exact self _
          · omega
        · rw [if_neg hc, Option.bind_some]
          refine step (2 * i + 1) hr (by omega) (fun k h1 h2 => ?_)
          rcases (by omega : k = 2 * i ∨ k = 2 * i + 1) with rfl | rfl
          · exact ho.le_of_not hc
          · exact self _

/-- Ordered except for number `i`, in either direction. -/
def Except (cmp : Addr → Addr → Int) (g : Nat → Addr) (i : Nat) : Prop :=
  (∀ k, g k ≠ 0 → g (k / 2) ≠ 0 → k ≠ i → k / 2 ≠ i → cmp (g (k / 2)) (g k) ≤ 0) ∧ ∀ k, g k ≠ 0 → k / 2 = i → g (i / 2) ≠ 0 → cmp (g (i / 2)) (g k) ≤ 0

theorem erase_ok {cmp : Addr → Addr → Int} (ho : Order cmp) (fuel : Nat) (s : State) (g : Nat → Addr) (i : Nat) (h : Shape s g) (hi : g i ≠ 0) (he : Except cmp g i) (hf : s.count ≤ fuel) :
    ∃ s' g', erase cmp fuel s (g i) = some s' ∧ Shape s' g' ∧ Ordered cmp g' ∧ Rng g g' ∧ s'.count = s.count ∧ Frame s s' g := by
  have hin := (h.number i).1 hi
  rw [erase]
  rw [h.parent i hi]
  by_cases hc : g (i / 2) ≠ 0 ∧ cmp (g i) (g (i / 2)) < 0
  · rw [if_pos hc]
    refine fixup_ok ho fuel s g i h hi ⟨fun k h1 h2 h3 => ?_, he.2⟩ (by omega)
    by_cases e : k / 2 = i
    · rw [e]; exact ho.trans _ _ _ (by omega) (he.2 k h1 e hc.1)
    · exact he.1 k h1 h2 h3 e
  · rw [if_neg hc]
    refine siftDown_ok ho fuel s g i h hi ⟨fun k h1 h2 h3 => ?_, he.2⟩ (by omega)
    by_cases e : k = i
    · subst e; exact ho.le_of_not (fun hh => hc ⟨h2, hh⟩)
    · exact he.1 k h1 h2 e h3

theorem flsuf_ok (n : Nat) (h1 : 1 ≤ n) (h2 : n < 2 ^ 64) : ∃ d, Scan.flsuf (BitVec.ofNat 64 n) = some d ∧ 2 ^ d ≤ n ∧ n < 2 ^ (d + 1) := by
  have e : (BitVec.ofNat 64 n).toNat = n := by rw [BitVec.toNat_ofNat, Nat.mod_eq_of_lt h2]
  have hne : BitVec.ofNat 64 n ≠ 0 := by
    intro h0
    rw [h0] at e
    simp at e; omega
  obtain ⟨d, hd⟩ := Scan.exists_last _ hne
  refine ⟨d, Scan.flsuf_some.2 hd, ?_⟩
  have := (Scan.isLast_iff_pow _ d).1 hd
  rw [e] at this
  exact this

theorem div_step (N d : Nat) : N / 2 ^ d = 2 * (N / 2 ^ (d + 1)) + (if N.testBit d then 1 else 0) := by
  rw [Nat.pow_succ, ← Nat.div_div_eq_div_mul, Nat.testBit_eq_decide_div_mod_eq]
  generalize N / 2 ^ d = x
  by_cases h : x % 2 = 1 <;> simp [h] <;> omega

theorem descend_ok {s : State} {g : Nat → Addr} (h : Shape s g) (N : Nat) : ∀ d, 2 ^ d ≤ N → descend s N d (g (N / 2 ^ d)) = g N := by
  intro d
  induction d with
  | zero => intro _; simp [descend]
  | succ d ih =>
    intro hN
    rw [descend]
    have h1 : 1 ≤ N / 2 ^ (d + 1) := (Nat.le_div_iff_mul_le (Nat.two_pow_pos _)).2 (by omega)
    by_cases h0 : g (N / 2 ^ (d + 1)) = 0
    · rw [if_pos h0]
      refine Eq.symm (Decidable.byContradiction fun hN0 => ?_)
      have a := (h.number N).1 hN0
      have : N / 2 ^ (d + 1) ≤ N := Nat.div_le_self ..
      exact (h.number _).2 ⟨h1, by omega⟩ h0
    · rw [if_neg h0]
      have e := div_step N d
      have hd : 2 ^ d ≤ N := by rw [Nat.pow_succ] at hN; omega
      by_cases hb : N.testBit d = true
      · simp only [hb, if_true] at e ⊢
        rw [h.right _ h0, ← e]; exact ih hd
      · simp only [hb, if_false, Nat.add_zero] at e ⊢
        simp only [Bool.false_eq_true, if_false, Nat.add_zero] at e ⊢
        rw [h.left _ h0, ← e]; exact ih hd

theorem find_same_level {s : State} {g : Nat → Addr} (h : Shape s g) (hc : 1 ≤ s.count) (hc' : s.count < 2 ^ 64) (N : Nat)
    (hN : ∀ d, (2 ^ d ≤ N ∧ N < 2 ^ (d + 1)) ↔ (2 ^ d ≤ s.count ∧ s.count < 2 ^ (d + 1))) : find s N = some (g N) := by
  obtain ⟨d, e, h1, h2⟩ := flsuf_ok s.count hc hc'
  rw [find, e, Option.map_some, h.root]
  obtain ⟨h3, h4⟩ := (hN d).2 ⟨h1, h2⟩
  have e1 : N / 2 ^ d = 1 := by
    have a : 1 ≤ N / 2 ^ d := (Nat.le_div_iff_mul_le (Nat.two_pow_pos _)).2 (by omega)
    have b : N / 2 ^ d < 2 := (Nat.div_lt_iff_lt_mul (Nat.two_pow_pos _)).2 (by rw [Nat.pow_succ] at h4; omega)
    omega
  have := descend_ok h N d h3
  rw [e1] at this
  rw [this]

theorem parentLoop_ok {s : State} {g : Nat → Addr} (h : Shape s g) (N : Nat) (hN : N = s.count + 1) : ∀ d p l, 2 ^ (d + 1) ≤ N → Link.get s l = g (N / 2 ^ (d + 1)) →
    parentLoop s N (d + 1) p l = some (g (N / 2), if N.testBit 0 then .right (g (N / 2)) else .left (g (N / 2))) := by
  intro d
  induction d with
  | zero =>
    intro p l hd hl
    rw [parentLoop]
    have hl' : Link.get s l = g (N / 2) := by rw [hl]
    have hd' : 2 ≤ N := by simpa using hd
    rw [hl', if_neg ((h.number _).2 (by omega)), parentLoop]
  | succ d ih =>
    intro p l hd hl
    rw [parentLoop]
    rw [hl]
    have h1 : 1 ≤ N / 2 ^ (d + 1 + 1) := (Nat.le_div_iff_mul_le (Nat.two_pow_pos _)).2 (by omega)
    have h2 : N / 2 ^ (d + 1 + 1) ≤ N / 2 := by
      rw [Nat.pow_succ, Nat.mul_comm, ← Nat.div_div_eq_div_mul]; exact Nat.div_le_self ..
    have h0 : g (N / 2 ^ (d + 1 + 1)) ≠ 0 := (h.number _).2 ⟨h1, by omega⟩
    rw [if_neg h0]
    apply ih _ _ (by rw [Nat.pow_succ] at hd; omega)
    have e := div_step N (d + 1)
    by_cases hb : N.testBit (d + 1) = true
    · simp only [hb, if_true, Link.get] at e ⊢
      rw [h.right _ h0, ← e]
    · simp only [hb, if_false, Nat.add_zero] at e ⊢
      simp only [Bool.false_eq_true, if_false, Nat.add_zero, Link.get] at e ⊢
      rw [h.left _ h0, ← e]

/-- The place where the next node goes. -/
def nextLink (g : Nat → Addr) (N : Nat) : Link := if N = 1 then .root else if N.testBit 0 then .right (g (N / 2)) else .left (g (N / 2))

theorem findParent_ok {s : State} {g : Nat → Addr} (h : Shape s g) (hc : s.count + 1 < 2 ^ 64) : findParent s = some (g ((s.count + 1) / 2), nextLink g (s.count + 1)) := by
  unfold findParent nextLink
  by_cases h0 : s.count = 0
  · have : s.root = 0 := by
      rw [h.root]
      exact Decidable.byContradiction fun hh => by have := (h.number 1).1 hh; omega
    rw [if_pos this, if_pos (by omega), h0]
    simp [h.zero]
  · have hr : s.root ≠ 0 := by rw [h.root]; exact (h.number 1).2 (by omega)
    rw [if_neg hr, if_neg (by omega)]
    dsimp only
    rw [Nat.mod_eq_of_lt hc]
    obtain ⟨d, e, h1, h2⟩ := flsuf_ok (s.count + 1) (by omega) hc
    rw [e, Option.bind_some]
    cases d with
    | zero => simp at h2; omega
    | succ d =>
      apply parentLoop_ok h _ rfl _ _ _ h1
      have e1 : (s.count + 1) / 2 ^ (d + 1) = 1 := by
        have a : 1 ≤ (s.count + 1) / 2 ^ (d + 1) := (Nat.le_div_iff_mul_le (Nat.two_pow_pos _)).2 (by omega)
        have b : (s.count + 1) / 2 ^ (d + 1) < 2 := (Nat.div_lt_iff_lt_mul (Nat.two_pow_pos _)).2 (by rw [Nat.pow_succ] at h2; omega)
        omega
      rw [e1]; exact h.root

/-! ### A new last node -/

theorem link_shape {s : State} {g : Nat → Addr} (h : Shape s g) (hc : s.count + 1 < 2 ^ 64) {n : Addr} (hn : n ≠ 0) (hf : ∀ k, g k ≠ n) :
    Shape (link s (g ((s.count + 1) / 2)) (nextLink g (s.count + 1)) n) (fun k => if k = s.count + 1 then n else g k) ∧
    Frame s (link s (g ((s.count + 1) / 2)) (nextLink g (s.count + 1)) n) (fun k => if k = s.count + 1 then n else g k) := by
  have hout : ∀ k, s.count < k → g k = 0 := fun k hk => Decidable.byContradiction fun hh => by have := (h.number k).1 hh; omega
  generalize hN : s.count + 1 = N at *
  have F : (link s (g (N / 2)) (nextLink g N) n).count = N ∧ (link s (g (N / 2)) (nextLink g N) n).root = (if N = 1 then n else s.root) ∧
      (∀ x, (link s (g (N / 2)) (nextLink g N) n).left x = if x = n then 0 else if N ≠ 1 ∧ N.testBit 0 = false ∧ x = g (N / 2) then n else s.left x) ∧
      (∀ x, (link s (g (N / 2)) (nextLink g N) n).right x = if x = n then 0 else if N ≠ 1 ∧ N.testBit 0 = true ∧ x = g (N / 2) then n else s.right x) ∧
      (∀ x, (link s (g (N / 2)) (nextLink g N) n).parent x = if x = n then g (N / 2) else s.parent x) := by
    have hm : (s.count + 1) % 2 ^ 64 = N := by rw [hN]; exact Nat.mod_eq_of_lt hc
    unfold link nextLink
    by_cases h1 : N = 1
    · simp [h1, Link.set, State.setLeft, State.setRight, State.setParent, upd, hm]
    · by_cases hb : N.testBit 0 = true
      · simp only [h1, hb, if_true, if_false, Link.set, State.setLeft, State.setRight, State.setParent, upd, hm]; simp [h1]
      · have hb' : N.testBit 0 = false := by simpa using hb
        simp only [h1, hb', if_false, Bool.false_eq_true, Link.set, State.setLeft, State.setRight, State.setParent, upd, hm]; simp [h1]
  generalize link s (g (N / 2)) (nextLink g N) n = t at F
  obtain ⟨f1, f2, f3, f4, f5⟩ := F
  have hb : N.testBit 0 = decide (N % 2 = 1) := by simp [Nat.testBit_zero]
  have hgn : ∀ k, g k ≠ n := hf
  refine ⟨⟨fun k => ?_, fun j k => ?_, ?_, fun k => ?_, fun k => ?_, fun k => ?_⟩, fun x hx => ?_⟩
  · rw [f1]
    by_cases e : k = N
    · rw [if_pos e]; exact ⟨fun _ => by omega, fun _ => hn⟩
    · rw [if_neg e, h.number]; omega
  · by_cases e : j = N <;> by_cases e' : k = N
    · intros; omega
    · rw [if_pos e, if_neg e']; intro _ hh; exact absurd hh.symm (hf k)
    · rw [if_neg e, if_pos e']; intro _ hh; exact absurd hh (hf j)
    · rw [if_neg e, if_neg e']; exact h.inj j k
  · rw [f2]
    by_cases e : N = 1
    · rw [if_pos e, if_pos e.symm]
    · rw [if_neg e, if_neg (Ne.symm e)]; exact h.root
  · intro hk
    rw [f3]
    by_cases e : k = N
    · rw [if_pos e, if_pos rfl, if_neg (by omega), hout _ (by omega)]
    · rw [if_neg e] at hk ⊢
      have := (h.number k).1 hk
      rw [if_neg (hf k), hb]
      by_cases e2 : 2 * k = N
      · rw [if_pos e2, if_pos]
        refine ⟨by omega, by simp; omega, by rw [← e2]; congr 1; omega⟩
      · rw [if_neg e2, if_neg]
        · exact h.left k hk
        · rintro ⟨a, b, c⟩
          have := h.inj _ _ hk c
          simp at b; omega
  · intro hk
    rw [f4]
    by_cases e : k = N
    · rw [if_pos e, if_pos rfl, if_neg (by omega), hout _ (by omega)]
    · rw [if_neg e] at hk ⊢
      have := (h.number k).1 hk
      rw [if_neg (hf k), hb]
      by_cases e2 : 2 * k + 1 = N
      · rw [if_pos e2, if_pos]
        refine ⟨by omega, by simp; omega, by rw [← e2]; congr 1; omega⟩
      · rw [if_neg e2, if_neg]
        · exact h.right k hk
        · rintro ⟨a, b, c⟩
          have := h.inj _ _ hk c
          simp at b; omega
  · intro hk
    rw [f5]
    by_cases e : k = N
    · rw [if_pos e, if_pos rfl, if_neg (by omega), e]
    · rw [if_neg e] at hk ⊢
      have := (h.number k).1 hk
      rw [if_neg (hf k), if_neg (by omega)]
      exact h.parent k hk
  · have hxn : x ≠ n := fun e => hx N (by dsimp only; rw [if_pos rfl, e])
    rw [f3, f4, f5, if_neg hxn, if_neg hxn, if_neg hxn]
    have hxp : N ≠ 1 → x ≠ g (N / 2) := fun h1 e => hx (N / 2) (by dsimp only; rw [if_neg (by omega), e])
    rw [if_neg (fun hh => hxp hh.1 hh.2.2), if_neg (fun hh => hxp hh.1 hh.2.2)]
    exact ⟨rfl, rfl, rfl⟩

theorem link_up {cmp : Addr → Addr → Int} {s : State} {g : Nat → Addr} (h : Shape s g) (ho : Ordered cmp g) (n : Addr) :
    Up cmp (fun k => if k = s.count + 1 then n else g k) (s.count + 1) := by
  have hout : ∀ k, s.count < k → g k = 0 := fun k hk => Decidable.byContradiction fun hh => by have := (h.number k).1 hh; omega
  refine ⟨fun k => ?_, fun k => ?_⟩
  · dsimp only
    intro hk hk2 hne
    rw [if_neg hne] at hk ⊢
    have := (h.number k).1 hk
    rw [if_neg (by omega)] at hk2 ⊢
    exact ho k hk hk2
  · dsimp only
    intro hk hk2
    rw [if_neg (by omega), hout k (by omega)] at hk
    exact absurd rfl hk

/-! ### Removal of the last node and replacement -/

theorem cut_shape {s : State} {g : Nat → Addr} (h : Shape s g) (t : State) (hc : t.count = s.count - 1)
    (hr : t.root = if s.count = 1 then 0 else s.root)
    (hl : ∀ k, 1 ≤ k → k < s.count → t.left (g k) = if 2 * k = s.count then 0 else s.left (g k))
    (hrr : ∀ k, 1 ≤ k → k < s.count → t.right (g k) = if 2 * k + 1 = s.count then 0 else s.right (g k))
    (hp : ∀ x, t.parent x = s.parent x) (h1 : 1 ≤ s.count) : Shape t (fun k => if k = s.count then 0 else g k) := by
  have num : ∀ k, (if k = s.count then 0 else g k) ≠ 0 → k ≠ s.count ∧ g k ≠ 0 ∧ 1 ≤ k ∧ k < s.count := by
    intro k hk
    by_cases e : k = s.count
    · rw [if_pos e] at hk; exact absurd rfl hk
    · rw [if_neg e] at hk
      have := (h.number k).1 hk
      exact ⟨e, hk, this.1, by omega⟩
  refine ⟨fun k => ?_, fun j k => ?_, ?_, fun k => ?_, fun k => ?_, fun k => ?_⟩
  · rw [hc]
    constructor
    · intro hk; have := num k hk; omega
    · intro hk; rw [if_neg (by omega)]; exact (h.number k).2 (by omega)
  · intro hj e
    obtain ⟨a, b, _⟩ := num j hj
    obtain ⟨c, d, _⟩ := num k (e ▸ hj)
    rw [if_neg a, if_neg c] at e
    exact h.inj j k b e
  · rw [hr]
    by_cases e : s.count = 1
    · rw [if_pos e, if_pos e.symm]
    · rw [if_neg e, if_neg (Ne.symm e)]; exact h.root
  · intro hk
    obtain ⟨a, b, c, d⟩ := num k hk
    rw [if_neg a, hl k c d, h.left k b]
  · intro hk
    obtain ⟨a, b, c, d⟩ := num k hk
    rw [if_neg a, hrr k c d, h.right k b]
  · intro hk
    obtain ⟨a, b, c, d⟩ := num k hk
    rw [if_neg a, hp, h.parent k b, if_neg (by omega)]

theorem inherit_fields (s : State) (node succ : Addr) (h1 : succ ≠ node) (h2 : s.left node ≠ succ) (h3 : s.right node ≠ succ) (h4 : s.parent node ≠ succ)
    (h5 : s.left node ≠ node) (h6 : s.right node ≠ node) (hn : node ≠ 0) :
    (inherit s node succ).count = s.count ∧ (inherit s node succ).root = (if s.parent node = 0 then succ else s.root) ∧
    (∀ x, (inherit s node succ).left x = if x = succ then s.left node else if x ≠ 0 ∧ x = s.parent node ∧ s.left x = node then succ else s.left x) ∧
    (∀ x, (inherit s node succ).right x = if x = succ then s.right node else if x ≠ 0 ∧ x = s.parent node ∧ s.left x ≠ node ∧ s.right x = node then succ else s.right x) ∧
    ∀ x, (inherit s node succ).parent x = if x = succ then s.parent node else if (x = s.left node ∨ x = s.right node) ∧ x ≠ 0 then succ else s.parent x := by
  unfold inherit
  have h1' : node ≠ succ := Ne.symm h1
  dsimp only
  have b0 : (s.setNode succ (s.parent node) (s.left node) (s.right node)).root = s.root := rfl
  have b1 : (s.setNode succ (s.parent node) (s.left node) (s.right node)).count = s.count := rfl
  have b2 : ∀ x, (s.setNode succ (s.parent node) (s.left node) (s.right node)).left x = if x = succ then s.left node else s.left x := fun x => rfl
  have b3 : ∀ x, (s.setNode succ (s.parent node) (s.left node) (s.right node)).right x = if x = succ then s.right node else s.right x := fun x => rfl
  have b4 : ∀ x, (s.setNode succ (s.parent node) (s.left node) (s.right node)).parent x = if x = succ then s.parent node else s.parent x := fun x => rfl
  generalize s.setNode succ (s.parent node) (s.left node) (s.right node) = s1 at *
  obtain ⟨a1, a2, a3, a4, a5⟩ := adopt_fields s1 node succ
  generalize adopt s1 node succ = s2 at *
  rw [b2, b3, if_neg h1', if_neg h1'] at a5
  have hp2 : s2.parent node = s.parent node := by rw [a5, b4, if_neg h1', if_neg]; grind
  unfold relink
  dsimp only
  rw [hp2, a1, a2, b2, b3, if_neg h4, if_neg h4]
  by_cases hp : s.parent node = 0
  · rw [if_pos hp, if_pos hp]
    refine ⟨by rw [← b1, ← a4], rfl, fun x => ?_, fun x => ?_, fun x => ?_⟩
    · show s1.left x = _; rw [b2]; grind
    · show s1.right x = _; rw [b3]; grind
    · show s2.parent x = _; rw [a5, b4]; grind
  · rw [if_neg hp, if_neg hp]
    by_cases ha : node = s.left (s.parent node)
    · rw [if_pos ha]
      refine ⟨by rw [← b1, ← a4]; rfl, by rw [← b0, ← a3]; rfl, fun x => ?_, fun x => ?_, fun x => ?_⟩
      · show upd s2.left _ _ x = _; rw [upd, a1, b2]; grind
      · show s2.right x = _; rw [a2, b3]; grind
      · show s2.parent x = _; rw [a5, b4]; grind
    · rw [if_neg ha]
      by_cases hb : node = s.right (s.parent node)
      · rw [if_pos hb]
        refine ⟨by rw [← b1, ← a4]; rfl, by rw [← b0, ← a3]; rfl, fun x => ?_, fun x => ?_, fun x => ?_⟩
        · show s2.left x = _; rw [a1, b2]; grind
        · show upd s2.right _ _ x = _; rw [upd, a2, b3]; grind
        · show s2.parent x = _; rw [a5, b4]; grind
      · rw [if_neg hb]
        refine ⟨by rw [← b1, ← a4], by rw [← b0, ← a3], fun x => ?_, fun x => ?_, fun x => ?_⟩
        · rw [a1, b2]; grind
        · rw [a2, b3]; grind
        · rw [a5, b4]; grind

theorem replace_shape {s : State} {g : Nat → Addr} (h : Shape s g) {m : Nat} (hm : g m ≠ 0) {L : Addr} (hL : L ≠ 0) (hf : ∀ k, g k ≠ L) :
    Shape (inherit s (g m) L) (fun k => if k = m then L else g k) := by
  have hmn := (h.number m).1 hm
  have hl := h.left m hm
  have hr := h.right m hm
  have hp := h.parent m hm
  obtain ⟨f1, f2, f3, f4, f5⟩ := inherit_fields s (g m) L (fun e => hf m e.symm) (by rw [hl]; exact hf _) (by rw [hr]; exact hf _) (by rw [hp]; exact hf _)
    (by rw [hl]; exact h.ne hm (by omega)) (by rw [hr]; exact h.ne hm (by omega)) hm
  generalize inherit s (g m) L = t at f1 f2 f3 f4 f5
  rw [hp] at f2 f3 f4 f5
  rw [hl] at f3 f5
  rw [hr] at f4 f5
  have num : ∀ k, (if k = m then L else g k) ≠ 0 → g k ≠ 0 := by
    intro k hk
    by_cases e : k = m
    · rw [e]; exact hm
    · rw [if_neg e] at hk; exact hk
  have z := h.zero
  refine ⟨fun k => ?_, fun j k => ?_, ?_, fun k => ?_, fun k => ?_, fun k => ?_⟩
  · rw [f1]
    by_cases e : k = m
    · rw [if_pos e, e]; exact ⟨fun _ => hmn, fun _ => hL⟩
    · rw [if_neg e]; exact h.number k
  · by_cases e : j = m <;> by_cases e' : k = m
    · intros; omega
    · rw [if_pos e, if_neg e']; intro _ hh; exact absurd hh.symm (hf k)
    · rw [if_neg e, if_pos e']; intro _ hh; exact absurd hh (hf j)
    · rw [if_neg e, if_neg e']; exact h.inj j k
  · rw [f2]
    by_cases e : m = 1
    · subst e; rw [if_pos (by simpa using z), if_pos rfl]
    · rw [if_neg ((h.number _).2 (by omega)), if_neg (Ne.symm e)]; exact h.root
  · intro hk
    have hk := num k hk
    have hkn := (h.number k).1 hk
    rw [f3]
    by_cases e : k = m
    · rw [if_pos e, if_pos rfl, if_neg (by omega), e]
    · rw [if_neg e, if_neg (hf k), h.left k hk]
      by_cases e2 : 2 * k = m
      · rw [if_pos e2, if_pos ⟨hk, by rw [← e2]; congr 1; omega, by rw [e2]⟩]
      · rw [if_neg e2, if_neg]
        rintro ⟨_, _, c⟩
        exact e2 (h.inj _ _ hm c.symm).symm
  · intro hk
    have hk := num k hk
    have hkn := (h.number k).1 hk
    rw [f4]
    by_cases e : k = m
    · rw [if_pos e, if_pos rfl, if_neg (by omega), e]
    · rw [if_neg e, if_neg (hf k), h.right k hk, h.left k hk]
      by_cases e2 : 2 * k + 1 = m
      · rw [if_pos e2, if_pos ⟨hk, by rw [← e2]; congr 1; omega, fun c => by have := h.inj _ _ hm c.symm; omega, by rw [e2]⟩]
      · rw [if_neg e2, if_neg]
        rintro ⟨_, _, _, c⟩
        exact e2 (h.inj _ _ hm c.symm).symm
  · intro hk
    have hk := num k hk
    have hkn := (h.number k).1 hk
    rw [f5]
    by_cases e : k = m
    · rw [if_pos e, if_pos rfl, if_neg (by omega), e]
    · rw [if_neg e, if_neg (hf k)]
      by_cases e2 : k / 2 = m
      · rw [if_pos e2, if_pos]
        refine ⟨?_, hk⟩
        rcases (by omega : k = 2 * m ∨ k = 2 * m + 1) with rfl | rfl
        · exact Or.inl rfl
        · exact Or.inr rfl
      · rw [if_neg e2, if_neg, h.parent k hk]
        rintro ⟨a | a, _⟩
        · have := h.inj _ _ hk a; omega
        · have := h.inj _ _ hk a; omega

/-- The numbering after the removal of number `m`: the last node takes its place. -/
def cutg (g : Nat → Addr) (n m : Nat) : Nat → Addr := fun k => if k = n then 0 else if k = m then g n else g k

/-- `inherit` does not look at the number of nodes. -/
theorem inherit_count (s : State) (a b : Addr) (c : Nat) : { inherit s a b with count := c } = inherit { s with count := c } a b := by
  unfold inherit relink adopt
  dsimp only [State.setNode, State.setLeft, State.setRight, State.setParent]
  split <;> split <;> split <;> first | rfl | (split <;> first | rfl | (split <;> rfl))

theorem inherit_cnt (s : State) (a b : Addr) : (inherit s a b).count = s.count := by
  unfold inherit relink adopt
  dsimp only [State.setNode, State.setLeft, State.setRight, State.setParent]
  split <;> split <;> split <;> first | rfl | (split <;> first | rfl | (split <;> rfl))

theorem remove_ok {s : State} {g : Nat → Addr} (h : Shape s g) (hc : s.count < 2 ^ 64) {m : Nat} (hm : g m ≠ 0) :
    ∃ t, remove s (g m) = some (t, if m = s.count then 0 else g s.count) ∧ Shape t (cutg g s.count m) ∧ t.count + 1 = s.count := by
  have hmn := (h.number m).1 hm
  have hL : g s.count ≠ 0 := (h.number _).2 (by omega)
  have hfind : find s s.count = some (g s.count) := find_same_level h (by omega) hc s.count (fun d => Iff.rfl)
  unfold remove
  rw [hfind, Option.bind_some, if_neg hL]
  dsimp only
  rw [h.parent _ hL]
  have hcc : (s.count + 2 ^ 64 - 1) % 2 ^ 64 = s.count - 1 := by
    rw [show s.count + 2 ^ 64 - 1 = (s.count - 1) + 2 ^ 64 by omega, Nat.add_mod_right, Nat.mod_eq_of_lt (by omega)]
  by_cases h1 : s.count = 1
  · have hm1 : m = 1 := by omega
    rw [if_pos (by rw [h1]; simpa using h.zero)]
    dsimp only
    rw [hcc, if_pos (by omega)]
    refine ⟨_, rfl, ?_, show s.count - 1 + 1 = s.count by omega⟩
    have := cut_shape h { s with root := 0, count := s.count - 1 } rfl (by rw [if_pos h1]) (fun k _ _ => by omega) (fun k _ _ => by omega) (fun x => rfl) (by omega)
    have e : cutg g s.count m = fun k => if k = s.count then 0 else g k := by
      funext k; unfold cutg; rw [h1, hm1]
      by_cases e : k = 1
      · rw [if_pos e, if_pos e]
      · rw [if_neg e, if_neg e, if_neg e]
    rw [e]
    exact this
  · have hP : g (s.count / 2) ≠ 0 := (h.number _).2 (by omega)
    rw [if_neg hP]
    -- the state without the last node
    have key : ∀ t1 : State, t1 = (if s.left (g (s.count / 2)) = g s.count then s.setLeft (g (s.count / 2)) 0 else s.setRight (g (s.count / 2)) 0) →
        t1.count = s.count ∧ Shape { t1 with count := s.count - 1 } (fun k => if k = s.count then 0 else g k) := by
      intro t1 ht
      have hcnt : t1.count = s.count := by rw [ht]; split <;> rfl
      refine ⟨hcnt, cut_shape h _ rfl ?_ (fun k a b => ?_) (fun k a b => ?_) (fun x => ?_) (by omega)⟩
      · rw [if_neg h1, ht]; show (State.root _) = _; split <;> rfl
      · have hk : g k ≠ 0 := (h.number k).2 (by omega)
        rw [h.left _ hP] at ht
        show t1.left (g k) = _
        rw [ht]
        by_cases e : g (2 * (s.count / 2)) = g s.count
        · rw [if_pos e]
          have e' := h.inj _ _ hL e.symm
          simp only [State.setLeft, upd]
          by_cases e2 : 2 * k = s.count
          · rw [if_pos e2, if_pos (congrArg g (by omega))]
          · rw [if_neg e2, if_neg]
            intro hh; have := h.inj _ _ hk hh; omega
        · rw [if_neg e, if_neg]
          · rfl
          · intro e2; exact e (congrArg g (by omega))
      · have hk : g k ≠ 0 := (h.number k).2 (by omega)
        rw [h.left _ hP] at ht
        show t1.right (g k) = _
        rw [ht]
        by_cases e : g (2 * (s.count / 2)) = g s.count
        · rw [if_pos e]
          have e' := h.inj _ _ hL e.symm
          rw [if_neg (by omega)]
          rfl
        · rw [if_neg e]
          have e' : 2 * (s.count / 2) ≠ s.count := fun hh => e (by rw [hh])
          simp only [State.setRight, upd]
          by_cases e2 : 2 * k + 1 = s.count
          · rw [if_pos e2, if_pos (congrArg g (by omega))]
          · rw [if_neg e2, if_neg]
            intro hh; have := h.inj _ _ hk hh; omega
      · show t1.parent x = _
        rw [ht]; split <;> rfl
    generalize ht : (if s.left (g (s.count / 2)) = g s.count then s.setLeft (g (s.count / 2)) 0 else s.setRight (g (s.count / 2)) 0) = t1
    obtain ⟨k1, k2⟩ := key t1 ht.symm
    by_cases hml : m = s.count
    · rw [if_pos (by rw [hml]), if_pos hml, k1, hcc]
      refine ⟨_, rfl, ?_, show s.count - 1 + 1 = s.count by omega⟩
      have e : cutg g s.count m = fun k => if k = s.count then 0 else g k := by
        funext k; unfold cutg; rw [hml]
        by_cases e : k = s.count
        · rw [if_pos e, if_pos e]
        · rw [if_neg e, if_neg e, if_neg e]
      rw [e]; exact k2
    · rw [if_neg (fun e => hml (h.inj _ _ hm e)), if_neg hml]
      dsimp only
      rw [inherit_cnt, k1, hcc, inherit_count]
      refine ⟨_, rfl, ?_, by rw [inherit_cnt]; show s.count - 1 + 1 = s.count; omega⟩
      have hm' : (if m = s.count then 0 else g m) = g m := if_neg hml
      have := replace_shape k2 (m := m) (by rw [hm']; exact hm) hL (fun k => by
        by_cases e : k = s.count
        · rw [if_pos e]; exact Ne.symm hL
        · rw [if_neg e]; exact h.ne hL e)
      rw [hm'] at this
      have e : cutg g s.count m = fun k => if k = m then g s.count else if k = s.count then 0 else g k := by
        funext k; unfold cutg
        by_cases e1 : k = m
        · rw [if_pos e1, if_neg (by omega), if_pos e1]
        · rw [if_neg e1, if_neg e1]
      rw [e]; exact this

theorem cutg_except {cmp : Addr → Addr → Int} (ho : Order cmp) {s : State} {g : Nat → Addr} (h : Shape s g) (hord : Ordered cmp g) {m : Nat} (hm : g m ≠ 0) (hml : m ≠ s.count) :
    Except cmp (cutg g s.count m) m := by
  have hmn := (h.number m).1 hm
  have num : ∀ k, cutg g s.count m k ≠ 0 → k ≠ s.count ∧ g k ≠ 0 := by
    intro k hk
    unfold cutg at hk
    by_cases e : k = s.count
    · rw [if_pos e] at hk; exact absurd rfl hk
    · rw [if_neg e] at hk
      refine ⟨e, ?_⟩
      by_cases e2 : k = m
      · rw [e2]; exact hm
      · rw [if_neg e2] at hk; exact hk
  have val : ∀ k, k ≠ s.count → k ≠ m → cutg g s.count m k = g k := fun k a b => by unfold cutg; rw [if_neg a, if_neg b]
  refine ⟨fun k hk hk2 h1 h2 => ?_, fun k hk hkm hp => ?_⟩
  · obtain ⟨a, b⟩ := num k hk
    obtain ⟨c, d⟩ := num _ hk2
    rw [val _ a h1, val _ c h2]
    exact hord k b d
  · obtain ⟨a, b⟩ := num k hk
    obtain ⟨c, d⟩ := num _ hp
    rw [val _ a (by omega), val _ c (by omega)]
    have := hord k b (by rw [hkm]; exact hm)
    rw [hkm] at this
    exact ho.trans _ _ _ (hord m hm d) this

theorem cutg_mem {s : State} {g : Nat → Addr} (h : Shape s g) {m : Nat} (hm : g m ≠ 0) (x : Addr) :
    (x ≠ 0 ∧ ∃ k, cutg g s.count m k = x) ↔ x ≠ 0 ∧ x ≠ g m ∧ ∃ k, g k = x := by
  have hmn := (h.number m).1 hm
  constructor
  · rintro ⟨hx, k, hk⟩
    refine ⟨hx, ?_⟩
    unfold cutg at hk
    by_cases e : k = s.count
    · rw [if_pos e] at hk; exact absurd hk.symm hx
    · rw [if_neg e] at hk
      by_cases e2 : k = m
      · rw [if_pos e2] at hk
        exact ⟨by rw [← hk]; exact h.ne hm (by omega), _, hk⟩
      · rw [if_neg e2] at hk
        exact ⟨by rw [← hk]; exact h.ne hm e2, _, hk⟩
  · rintro ⟨hx, hxm, k, hk⟩
    refine ⟨hx, ?_⟩
    have hkm : k ≠ m := fun e => hxm (by rw [← hk, e])
    by_cases e : k = s.count
    · exact ⟨m, by unfold cutg; rw [if_neg (by omega), if_pos rfl, ← e, hk]⟩
    · exact ⟨k, by unfold cutg; rw [if_neg e, if_neg hkm, hk]⟩

end Bfdev.Heap

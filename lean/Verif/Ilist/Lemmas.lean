import Verif.Ilist.Spec
import Verif.Dlist.Props
/-!
The invariant behind indexed lists: the nodes come in groups of equal ones, and the index is the ring of the first nodes of the groups.
-/
namespace Bfdev.Ilist
open Dlist (Addr Ring Links Same ring_addPrev ring_deluf ring_rotate ring_headInit ring_frame links_append)

theorem ring_insert {s : Dlist.Heap} {A B : List Addr} {n w : Addr} (h : Ring s (A ++ B)) (hnd : (A ++ B).Nodup)
    (hn : n ∉ A ++ B) (hw : (B ++ A).head? = some w) :
    Ring (Dlist.addPrev s w n) (A ++ n :: B) ∧ ∀ z, z ∉ A ++ n :: B → Same s (Dlist.addPrev s w n) z := by
  cases B with
  | nil =>
    cases A with
    | nil => simp at hw
    | cons a A =>
      simp at hw
      subst hw
      simp only [List.append_nil] at h hnd hn
      obtain ⟨h1, h2⟩ := ring_addPrev h hnd hn
      exact ⟨h1, fun z hz => h2 z (by grind)⟩
  | cons b B =>
    simp at hw
    subst hw
    obtain ⟨h1, h2⟩ := ring_addPrev (n := n) ((ring_rotate s A b B).1 h) (by grind) (by grind)
    refine ⟨?_, fun z hz => h2 z (by grind)⟩
    have h3 := (ring_rotate (Dlist.addPrev s b n) (A ++ [n]) b B).2 (by simpa using h1)
    simpa using h3

theorem ring_delInit {s : Dlist.Heap} {A B : List Addr} {x : Addr} (h : Ring s (A ++ x :: B)) (hnd : (A ++ x :: B).Nodup)
    (hne : A ++ B ≠ []) : Ring (Dlist.delInit s x) (A ++ B) ∧ Ring (Dlist.delInit s x) [x] ∧
      ∀ z, z ∉ A ++ x :: B → Same s (Dlist.delInit s x) z := by
  have h1 := (ring_rotate s A x B).1 h
  obtain ⟨h2, h3⟩ := ring_deluf h1 (by grind) (by intro e; apply hne; simp at e ⊢; exact ⟨e.2, e.1⟩)
  obtain ⟨h4, h5⟩ := ring_headInit (Dlist.deluf s x) x
  have h6 : Ring (Dlist.delInit s x) (B ++ A) := ring_frame h2 (fun z hz => h5 z (by grind))
  refine ⟨?_, h4, fun z hz => (h3 z (by grind)).trans (h5 z (by grind))⟩
  cases A with
  | nil => simpa using h6
  | cons a A => simpa using (ring_rotate _ B a A).1 h6

theorem self_delInit {s : Dlist.Heap} {x : Addr} (h : Ring s [x]) : Ring (Dlist.delInit s x) [x] ∧
    ∀ z, Same s (Dlist.delInit s x) z := by
  obtain ⟨h4, h5⟩ := ring_headInit (Dlist.deluf s x) x
  refine ⟨h4, fun z => ?_⟩
  obtain ⟨e1, e2⟩ := h
  by_cases hz : z = x
  · subst hz; exact ⟨h4.1.trans e1.symm, h4.2.trans e2.symm⟩
  · refine Same.trans ?_ (h5 z hz)
    simp [Same, Dlist.deluf, Dlist.Heap.setNext, Dlist.Heap.setPrev, Dlist.upd, e1, e2, hz]

abbrev Group := Addr × List Addr

def all (g : Group) : List Addr := g.1 :: g.2
def flat (gs : List Group) : List Addr := gs.flatMap all
def leaders (gs : List Group) : List Addr := gs.map (·.1)

theorem flat_append (a b : List Group) : flat (a ++ b) = flat a ++ flat b := by simp [flat]
theorem flat_cons (g : Group) (b : List Group) : flat (g :: b) = g.1 :: (g.2 ++ flat b) := by simp [flat, all]
@[simp] theorem flat_nil : flat [] = [] := rfl
theorem leaders_append (a b : List Group) : leaders (a ++ b) = leaders a ++ leaders b := by simp [leaders]
@[simp] theorem leaders_cons (g : Group) (b : List Group) : leaders (g :: b) = g.1 :: leaders b := rfl
@[simp] theorem leaders_nil : leaders [] = [] := rfl

theorem leaders_sub (gs : List Group) : (leaders gs).Sublist (flat gs) := by
  induction gs with
  | nil => simp
  | cons g gs ih => rw [flat_cons, leaders_cons]; exact List.Sublist.cons_cons _ (ih.trans (List.sublist_append_right _ _))

theorem leaders_mem {gs : List Group} {x : Addr} (h : x ∈ leaders gs) : x ∈ flat gs := (leaders_sub gs).mem h

/-- What the comparison callback must provide: `sep a b` says that `a` belongs to an earlier group than `b`. -/
structure Sep (cmp : Addr → Addr → Int) (sep : Addr → Addr → Prop) : Prop where
  cong : ∀ a b, cmp a b = 0 → ∀ x, cmp x a < 0 ↔ cmp x b < 0
  ne : ∀ a b, sep a b → cmp a b ≠ 0
  lt : ∀ a b, cmp a b < 0 → sep a b
  trans : ∀ a b c, sep a b → sep b c → sep a c
  step : ∀ x p, ¬ cmp x p < 0 → cmp p x ≠ 0 → sep p x
  same : ∀ p e x, cmp p e = 0 → sep p x → sep e x

theorem sep_order {cmp : Addr → Addr → Int} (h : Order cmp) : Sep cmp (fun a b => cmp a b < 0) := by
  have hz : ∀ a b, cmp a b = 0 → cmp b a = 0 := fun a b e => by
    have h1 := h.flip a b
    have h2 := h.flip b a
    omega
  have hlt : ∀ a b c, cmp a b < 0 → cmp b c ≤ 0 → cmp a c < 0 := fun a b c h1 h2 => by
    have h3 := h.trans a b c (by omega) h2
    by_cases e : cmp a c = 0
    · have h4 := h.trans b c a h2 (by rw [hz a c e]; omega)
      have := (h.flip a b).1 h1
      omega
    · omega
  have hlt' : ∀ a b c, cmp a b ≤ 0 → cmp b c < 0 → cmp a c < 0 := fun a b c h1 h2 => by
    have h3 := h.trans a b c h1 (by omega)
    by_cases e : cmp a c = 0
    · have h4 := h.trans c a b (by rw [hz a c e]; omega) h1
      have := (h.flip b c).1 h2
      omega
    · omega
  refine ⟨fun a b e x => ⟨fun hx => hlt x a b hx (by omega), fun hx => hlt x b a hx (by rw [hz a b e]; omega)⟩,
    fun a b hh => by omega, fun a b hh => hh, fun a b c h1 h2 => hlt a b c h1 (by omega),
    fun x p h1 h2 => ?_, fun p e x h1 h2 => hlt' e p x (by rw [hz p e h1]; omega) h2⟩
  have := h.flip x p
  have := h.flip p x
  simp; omega

theorem sep_noTie {cmp : Addr → Addr → Int} (h : NoTie cmp) : Sep cmp (fun _ _ => True) :=
  ⟨fun a b e => absurd e (h a b), fun a b _ => h a b, fun _ _ _ => trivial, fun _ _ _ _ _ => trivial, fun _ _ _ _ => trivial,
    fun _ _ _ _ _ => trivial⟩

structure Inv (cmp : Addr → Addr → Int) (sep : Addr → Addr → Prop) (head : Addr) (s : State) (gs : List Group) : Prop where
  ring : Ring s.nodes (head :: flat gs)
  nodup : (head :: flat gs).Nodup
  index : gs ≠ [] → Ring s.index (leaders gs)
  follow : ∀ g ∈ gs, ∀ f ∈ g.2, Ring s.index [f] ∧ cmp g.1 f = 0
  out : ∀ z, z ≠ head → z ∉ flat gs → Ring s.nodes [z] ∧ Ring s.index [z]
  parted : gs.Pairwise fun g g' => ∀ e ∈ all g, sep e g'.1

theorem ring_self_iff {s : Dlist.Heap} {x : Addr} {t : List Addr} (h : Ring s (x :: t)) (hnd : (x :: t).Nodup) :
    Dlist.checkEmpty s x = true ↔ t = [] := (Dlist.checks h hnd).1

/-- A node of a ring with another node is not linked to itself. -/
theorem ring_not_self {s : Dlist.Heap} {A B : List Addr} {x : Addr} (h : Ring s (A ++ x :: B)) (hnd : (A ++ x :: B).Nodup)
    (hne : A ++ B ≠ []) : Dlist.checkEmpty s x = false := by
  have h1 := (ring_rotate s A x B).1 h
  rw [Bool.eq_false_iff]
  intro e
  have := (ring_self_iff h1 (by grind)).1 e
  simp at this
  grind

theorem self_empty {s : Dlist.Heap} {x : Addr} (h : Ring s [x]) : Dlist.checkEmpty s x = true := by
  simpa [Dlist.checkEmpty] using h.1

/-- Splitting the groups at the first one whose first node is above `x`. -/
theorem scan_spec {cmp : Addr → Addr → Int} {s : State} {head first x : Addr} : ∀ {gs : List Group} {w : Addr} {prev : Option Addr},
    Links s.index w (leaders gs) first → first ∉ leaders gs → ∀ fuel, gs.length < fuel →
    ∃ A B, (∀ g ∈ A, ¬ cmp x g.1 < 0) ∧ (∀ b, B.head? = some b → cmp x b.1 < 0) ∧ A ++ B = gs ∧
      (cmp x w < 0 ∧ scan s head first x cmp fuel w prev = some (w, w, prev) ∨
       ¬ cmp x w < 0 ∧ scan s head first x cmp fuel w prev =
        some ((leaders B).headD head, (leaders B).headD first, some ((leaders A).getLastD w))) := by
  intro gs
  induction gs with
  | nil =>
    intro w prev hl _ fuel hf
    obtain ⟨f, rfl⟩ : ∃ f, fuel = f + 1 := ⟨fuel - 1, by simp at hf; omega⟩
    refine ⟨[], [], by simp, by simp, rfl, ?_⟩
    by_cases hc : cmp x w < 0
    · exact Or.inl ⟨hc, by rw [scan, if_pos hc]⟩
    · refine Or.inr ⟨hc, ?_⟩
      rw [scan, if_neg hc]
      simp [hl.1]
  | cons g gs ih =>
    intro w prev hl hn fuel hf
    obtain ⟨f, rfl⟩ : ∃ f, fuel = f + 1 := ⟨fuel - 1, by simp at hf; omega⟩
    simp only [leaders_cons, List.mem_cons, not_or] at hn
    obtain ⟨A, B, hA, hB, he, h⟩ := ih (w := g.1) (prev := some w) hl.2.2 hn.2 f (by simp at hf; omega)
    have hnext : s.index.next w = g.1 := hl.1
    have hne : g.1 ≠ first := fun e => hn.1 e.symm
    rcases h with ⟨h1, h2⟩ | ⟨h1, h2⟩
    · refine ⟨[], g :: gs, by simp, by simpa using h1, rfl, ?_⟩
      by_cases hc : cmp x w < 0
      · exact Or.inl ⟨hc, by rw [scan, if_pos hc]⟩
      · refine Or.inr ⟨hc, ?_⟩
        rw [scan, if_neg hc]
        simp only [hnext, if_pos hne, h2]
        simp
    · refine ⟨g :: A, B, ?_, hB, by simp [he], ?_⟩
      · intro g' hg'
        rcases List.mem_cons.1 hg' with e | e
        · rw [e]; exact h1
        · exact hA _ e
      by_cases hc : cmp x w < 0
      · exact Or.inl ⟨hc, by rw [scan, if_pos hc]⟩
      · refine Or.inr ⟨hc, ?_⟩
        rw [scan, if_neg hc]
        simp only [hnext, if_pos hne, h2]
        simp [List.getLast?_cons]

/-- The same for the whole loop. -/
theorem scan_all {cmp : Addr → Addr → Int} {s : State} {head x : Addr} {g : Group} {gs : List Group}
    (hr : Ring s.index (leaders (g :: gs))) (hnd : (leaders (g :: gs)).Nodup) (fuel : Nat) (hf : (g :: gs).length < fuel) :
    ∃ A B w, (∀ g ∈ A, ¬ cmp x g.1 < 0) ∧ (∀ b, B.head? = some b → cmp x b.1 < 0) ∧ A ++ B = g :: gs ∧
      (leaders B ++ leaders A).head? = some w ∧
      scan s head g.1 x cmp fuel g.1 none = some ((leaders B).headD head, w, (leaders A).getLast?) := by
  obtain ⟨A, B, hA, hB, he, h⟩ := scan_spec (cmp := cmp) (s := s) (head := head) (first := g.1) (x := x) (gs := gs) (w := g.1)
    (prev := none) hr (List.nodup_cons.1 hnd).1 fuel (by simp at hf; omega)
  rcases h with ⟨h1, h2⟩ | ⟨h1, h2⟩
  · exact ⟨[], g :: gs, g.1, by simp, by simpa using h1, rfl, by simp, by rw [h2]; simp⟩
  · refine ⟨g :: A, B, (leaders B).headD g.1, ?_, hB, by simp [he], ?_, ?_⟩
    · intro g' hg'
      rcases List.mem_cons.1 hg' with e | e
      · rw [e]; exact h1
      · exact hA _ e
    · cases B <;> simp
    · rw [h2, leaders_cons, List.getLast?_cons]
      simp [List.getLastD_eq_getLast?]

theorem place_split {cmp : Addr → Addr → Int} {x : Addr} {P Q : List Addr} (hP : ∀ y ∈ P, ¬ cmp x y < 0)
    (hQ : ∀ y, Q.head? = some y → cmp x y < 0) : place cmp x (P ++ Q) = P ++ x :: Q := by
  induction P with
  | nil =>
    cases Q with
    | nil => rfl
    | cons q Q => have := hQ q rfl; simp [place, this]
  | cons p P ih =>
    have h1 := hP p (by simp)
    have := ih (fun y hy => hP y (by simp [hy]))
    simp only [place] at this ⊢
    simp [h1, this]

end Bfdev.Ilist

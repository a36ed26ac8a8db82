import Verif.Ilist.Lemmas
/-!
C25: indexed lists.
-/
namespace Bfdev.Ilist
open Dlist (Addr Ring Links Same ring_frame)

/-- The list under `head` holds the nodes `l`. -/
def Holds (cmp : Addr → Addr → Int) (sep : Addr → Addr → Prop) (head : Addr) (s : State) (l : List Addr) : Prop :=
  ∃ gs, Inv cmp sep head s gs ∧ flat gs = l

theorem flat_length (gs : List Group) : gs.length ≤ (flat gs).length := by
  have := (leaders_sub gs).length_le
  simpa [leaders] using this

theorem holds_each {cmp : Addr → Addr → Int} {sep : Addr → Addr → Prop} {head : Addr} {s : State} {l : List Addr}
    (h : Holds cmp sep head s l) (fuel : Nat) (hf : l.length < fuel) : forEach s head fuel = some l := by
  obtain ⟨gs, h, rfl⟩ := h
  exact (Dlist.traversals h.ring h.nodup fuel hf).1

theorem holds_nodup {cmp : Addr → Addr → Int} {sep : Addr → Addr → Prop} {head : Addr} {s : State} {l : List Addr}
    (h : Holds cmp sep head s l) : (head :: l).Nodup := by
  obtain ⟨gs, h, rfl⟩ := h
  exact h.nodup

theorem add_present {cmp : Addr → Addr → Int} {sep : Addr → Addr → Prop} {head : Addr} {s : State} {l : List Addr}
    (h : Holds cmp sep head s l) {x : Addr} (hx : x ∈ l) (fuel : Nat) : add s head x cmp fuel = some s := by
  obtain ⟨gs, h, rfl⟩ := h
  obtain ⟨A, B, e⟩ := List.append_of_mem hx
  have hr := h.ring
  have hnd := h.nodup
  rw [e] at hr hnd
  have := ring_not_self (A := head :: A) (B := B) (x := x) hr hnd (by simp)
  simp [add, this]

theorem last_group {A : List Group} (hA : A ≠ []) : ∃ A' p f, A = A' ++ [(p, f)] ∧ (leaders A).getLast? = some p := by
  rcases List.eq_nil_or_concat A with e | ⟨A', g, e⟩
  · exact absurd e hA
  · refine ⟨A', g.1, g.2, by simpa using e, ?_⟩
    rw [e]
    simp [leaders]

theorem add_absent {cmp : Addr → Addr → Int} {sep : Addr → Addr → Prop} (hc : Sep cmp sep) {head : Addr} {s : State}
    {l : List Addr} (h : Holds cmp sep head s l) {x : Addr} (hx : x ∉ l) (hxh : x ≠ head) (fuel : Nat) (hf : l.length < fuel) :
    ∃ s', add s head x cmp fuel = some s' ∧ Holds cmp sep head s' (place cmp x l) := by
  obtain ⟨gs, h, rfl⟩ := h
  obtain ⟨ho1, ho2⟩ := h.out x hxh hx
  unfold add
  rw [if_neg (by simp [self_empty ho1, self_empty ho2])]
  cases gs with
  | nil =>
    have he : headEmpty s head = true := self_empty h.ring
    rw [if_pos he]
    refine ⟨_, rfl, [(x, [])], ?_, rfl⟩
    obtain ⟨h1, h2⟩ := ring_insert (A := [head]) (B := []) (n := x) (w := head) h.ring h.nodup (by simp [hxh]) rfl
    refine ⟨h1, by simp [flat, all, Ne.symm hxh], fun _ => ho2, by simp, fun z hz hz' => ?_, by simp⟩
    have hzx : z ≠ x := by simp [flat, all] at hz'; exact hz'
    obtain ⟨o1, o2⟩ := h.out z hz (by simp)
    exact ⟨ring_frame o1 (fun y hy => h2 y (by simp at hy; subst hy; simp [hz, hzx])), o2⟩
  | cons g gs =>
    have he : headEmpty s head = false := by
      have := h.ring
      have hnd := h.nodup
      rw [flat_cons] at this hnd
      exact ring_not_self (A := []) this hnd (by simp)
    rw [if_neg (by simp [he])]
    have hnd := h.nodup
    have hir := h.index (by simp)
    have hind : (leaders (g :: gs)).Nodup := (leaders_sub _).nodup (List.nodup_cons.1 hnd).2
    have hfirst : s.nodes.next head = g.1 := by
      have := h.ring
      rw [flat_cons] at this
      exact this.1
    obtain ⟨A, B, w, hA, hB, heq, hw, hscan⟩ := scan_all (cmp := cmp) (s := s) (head := head) (x := x) hir hind fuel
      (by have := flat_length (g :: gs); omega)
    rw [hfirst, hscan]
    simp only
    refine ⟨_, rfl, ?_⟩
    -- the node list
    have hfl : flat (g :: gs) = flat A ++ flat B := by rw [← heq, flat_append]
    have hll : leaders (g :: gs) = leaders A ++ leaders B := by rw [← heq, leaders_append]
    have hP : ∀ y ∈ flat A, ¬ cmp x y < 0 := by
      intro y hy
      obtain ⟨g', hg', hy'⟩ := List.mem_flatMap.1 hy
      have h1 := hA g' hg'
      rcases List.mem_cons.1 hy' with e | e
      · rw [e]; exact h1
      · have h2 := (h.follow g' (by rw [← heq]; simp [hg']) y e).2
        exact fun e => h1 ((hc.cong _ _ h2 x).2 e)
    have hQ : ∀ y, (flat B).head? = some y → cmp x y < 0 := by
      intro y hy
      cases B with
      | nil => simp at hy
      | cons b B => rw [flat_cons] at hy; simp at hy; subst hy; exact hB b rfl
    rw [hfl, place_split hP hQ]
    have hr := h.ring
    rw [hfl] at hr hnd hx
    have hnw : (flat B ++ head :: flat A).head? = some ((leaders B).headD head) := by
      cases B with
      | nil => simp
      | cons b B => simp [flat_cons]
    obtain ⟨n1, n2⟩ := ring_insert (A := head :: flat A) (B := flat B) (n := x) hr hnd (by grind) hnw
    have hnd' : (head :: (flat A ++ x :: flat B)).Nodup := by grind
    have hsep : ∀ b ∈ B, sep x b.1 := by
      intro b hb
      cases B with
      | nil => simp at hb
      | cons b0 B =>
        have h0 := hc.lt _ _ (hB b0 rfl)
        rcases List.mem_cons.1 hb with e | e
        · rw [e]; exact h0
        · have hp := h.parted
          rw [← heq] at hp
          have := (List.pairwise_cons.1 (List.pairwise_append.1 hp).2.1).1 b e b0.1 (by simp [all])
          exact hc.trans _ _ _ h0 this
    have hp := h.parted
    rw [← heq] at hp
    have hp' := List.pairwise_append.1 hp
    have hfol := h.follow
    rw [← heq] at hfol
    have hleadnil : ∀ z ∈ leaders A ++ leaders B, z ∈ flat A ++ flat B := fun z hz => by
      rw [← leaders_append] at hz; rw [← flat_append]; exact leaders_mem hz
    -- `x` leads a group of its own
    have lead : (∀ g ∈ A, ∀ e ∈ all g, sep e x) →
        Inv cmp sep head ⟨Dlist.addPrev s.nodes ((leaders B).headD head) x, Dlist.addPrev s.index w x⟩ (A ++ (x, []) :: B) := by
      intro hbefore
      rw [hll] at hir hind
      obtain ⟨i1, i2⟩ := ring_insert (n := x) hir hind (fun hh => hx (hleadnil x hh)) hw
      have hnotlead : ∀ z, z ≠ x → z ∉ leaders A ++ leaders B → Ring s.index [z] → Ring (Dlist.addPrev s.index w x) [z] := by
        intro z h1 h2 h3
        refine ring_frame h3 (fun y hy => i2 y ?_)
        simp at hy; subst hy
        simp at h2 ⊢
        exact ⟨h2.1, h1, h2.2⟩
      refine ⟨?_, ?_, fun _ => ?_, ?_, ?_, ?_⟩
      · rw [flat_append, flat_cons]; exact n1
      · rw [flat_append, flat_cons]; exact hnd'
      · rw [leaders_append, leaders_cons]; exact i1
      · intro g' hg' f hf
        have hg'' : g' ∈ A ++ B := by
          simp at hg' ⊢
          rcases hg' with h1 | h1 | h1
          · exact Or.inl h1
          · rw [h1] at hf; simp at hf
          · exact Or.inr h1
        obtain ⟨f1, f2⟩ := hfol g' hg'' f hf
        have hfm : f ∈ flat (A ++ B) := List.mem_flatMap.2 ⟨g', hg'', by simp [all, hf]⟩
        have hfx : f ≠ x := by intro e; subst e; rw [flat_append] at hfm; exact hx hfm
        refine ⟨hnotlead f hfx ?_ f1, f2⟩
        intro hl
        -- a follower is not a leader
        have h5 := hind
        have hchk := self_empty f1
        have hind2 := hir
        obtain ⟨u, v, euv⟩ := List.append_of_mem hl
        rw [euv] at hind2 h5
        have hnil : u ++ v = [] := by
          cases huv : u ++ v with
          | nil => rfl
          | cons a b =>
            have := ring_not_self hind2 h5 (by rw [huv]; simp)
            rw [hchk] at this; cases this
        simp at hnil
        obtain ⟨rfl, rfl⟩ := hnil
        simp at euv
        have hlen : (A ++ B).length = 1 := by
          have := congrArg List.length euv
          simp [leaders] at this ⊢; omega
        obtain ⟨g0, eg0⟩ := List.length_eq_one_iff.1 hlen
        rw [eg0] at hg''
        simp at hg''
        subst hg''
        have e2 : g'.1 = f := by
          rw [← leaders_append, eg0] at euv
          simpa using euv
        have h6 : (flat (A ++ B)).Nodup := by rw [flat_append]; exact (List.nodup_cons.1 hnd).2
        rw [eg0, flat_cons, e2] at h6
        simp at h6
        exact h6.1 hf
      · intro z hz hz'
        rw [flat_append, flat_cons] at hz'
        simp at hz'
        obtain ⟨o1, o2⟩ := h.out z hz (by rw [hfl]; simp [hz'.1, hz'.2.2])
        refine ⟨ring_frame o1 (fun y hy => n2 y ?_), hnotlead z hz'.2.1 ?_ o2⟩
        · simp at hy; subst hy; simp [hz, hz'.1, hz'.2.1, hz'.2.2]
        · exact fun hl => by
            have := hleadnil z hl
            simp [hz'.1, hz'.2.2] at this
      · rw [List.pairwise_append]
        refine ⟨hp'.1, ?_, ?_⟩
        · rw [List.pairwise_cons]
          exact ⟨fun b hb e he => by simp [all] at he; rw [he]; exact hsep b hb, hp'.2.1⟩
        · intro a ha b hb
          rcases List.mem_cons.1 hb with e | e
          · rw [e]; exact hbefore a ha
          · exact hp'.2.2 a ha b e
    by_cases hAn : A = []
    · subst hAn
      refine ⟨[] ++ (x, []) :: B, ?_, by simp [flat_cons]⟩
      simpa [leads] using lead (by simp)
    · obtain ⟨A', p, f, e, hlast⟩ := last_group hAn
      rw [hlast]
      by_cases hz : cmp p x = 0
      · -- `x` joins the last group before
        refine ⟨A' ++ (p, f ++ [x]) :: B, ?_, ?_⟩
        · have hlf : leads cmp x (some p) = false := by simp [leads, hz]
          rw [hlf]
          subst e
          have efl : flat (A' ++ (p, f ++ [x]) :: B) = flat (A' ++ [(p, f)]) ++ x :: flat B := by
            simp [flat_append, flat_cons]
          refine ⟨?_, ?_, fun _ => ?_, ?_, ?_, ?_⟩
          · rw [efl]; exact n1
          · rw [efl]; exact hnd'
          · have : leaders (A' ++ (p, f ++ [x]) :: B) = leaders (A' ++ [(p, f)]) ++ leaders B := by simp [leaders]
            rw [this, ← hll]; exact hir
          · intro g' hg' f' hf'
            simp at hg'
            rcases hg' with h1 | h1 | h1
            · exact hfol g' (by simp [h1]) f' hf'
            · subst h1
              simp at hf'
              rcases hf' with h2 | h2
              · exact hfol (p, f) (by simp) f' h2
              · subst h2; exact ⟨ho2, hz⟩
            · exact hfol g' (by simp [h1]) f' hf'
          · intro z hz0 hz'
            rw [efl] at hz'
            simp only [List.mem_append, List.mem_cons, not_or] at hz'
            obtain ⟨o1, o2⟩ := h.out z hz0 (by rw [hfl]; simp only [List.mem_append, not_or]; exact ⟨hz'.1, hz'.2.2⟩)
            refine ⟨ring_frame o1 (fun y hy => n2 y ?_), o2⟩
            simp only [List.mem_singleton] at hy; subst hy
            simp only [List.cons_append, List.mem_append, List.mem_cons, not_or]
            exact ⟨hz0, hz'.1, hz'.2.1, hz'.2.2⟩
          · have hq := List.pairwise_append.1 hp'.1
            rw [List.pairwise_append]
            refine ⟨hq.1, ?_, ?_⟩
            · rw [List.pairwise_cons]
              refine ⟨fun b hb e he => ?_, hp'.2.1⟩
              simp [all] at he
              rcases he with h1 | h1 | h1
              · subst h1; exact hp'.2.2 (e, f) (by simp) b hb e (by simp [all])
              · exact hp'.2.2 (p, f) (by simp) b hb e (by simp [all, h1])
              · subst h1; exact hsep b hb
            · intro a ha b hb
              rcases List.mem_cons.1 hb with e | e
              · subst e; exact hq.2.2 a ha (p, f) (by simp)
              · exact hp'.2.2 a (by simp [ha]) b e
        · subst e; simp [flat_append, flat_cons]
      · refine ⟨A ++ (x, []) :: B, ?_, by simp [flat_append, flat_cons]⟩
        have hlt : leads cmp x (some p) = true := by simp [leads, hz]
        rw [hlt]
        refine lead (fun g' hg' e' he' => ?_)
        have hpA : (p, f) ∈ A := by rw [e]; simp
        have hpx : sep p x := hc.step x p (hA (p, f) hpA) hz
        rw [e] at hg'
        simp at hg'
        rcases hg' with h1 | h1
        · have hq := hp'.1
          rw [e] at hq
          exact hc.trans _ _ _ ((List.pairwise_append.1 hq).2.2 g' h1 (p, f) (by simp) e' he') hpx
        · subst h1
          simp [all] at he'
          rcases he' with h2 | h2
          · subst h2; exact hpx
          · exact hc.same p e' x (hfol (p, f) (by simp [hpA]) e' h2).2 hpx

theorem split_unique {x : Addr} : ∀ {a b c d : List Addr}, a ++ x :: b = c ++ x :: d → x ∉ a → x ∉ c → a = c := by
  intro a
  induction a with
  | nil =>
    intro b c d h _ hc
    cases c with
    | nil => rfl
    | cons y c => simp at h hc; exact absurd h.1 hc.1
  | cons y a ih =>
    intro b c d h ha hc
    cases c with
    | nil => simp at h ha; exact absurd h.1.symm ha.1
    | cons z c =>
      simp at h ha hc
      rw [h.1, ih h.2 ha.2 hc.2]

theorem del_absent {cmp : Addr → Addr → Int} {sep : Addr → Addr → Prop} {head : Addr} {s : State}
    {l : List Addr} (h : Holds cmp sep head s l) {x : Addr} (hx : x ∉ l) (hxh : x ≠ head) :
    Holds cmp sep head (del s head x) (l.erase x) := by
  obtain ⟨gs, h, rfl⟩ := h
  obtain ⟨ho1, ho2⟩ := h.out x hxh hx
  rw [List.erase_of_not_mem hx]
  refine ⟨gs, ?_, rfl⟩
  obtain ⟨-, h2⟩ := self_delInit ho1
  have hi : delIndex s head x = s.index := by
    have : nodeEmpty s x = true := self_empty ho2
    simp [delIndex, this]
  refine ⟨ring_frame h.ring (fun z _ => h2 z), h.nodup, ?_, ?_, ?_, h.parted⟩
  · simp only [del, hi]; exact h.index
  · simp only [del, hi]; exact h.follow
  · intro z hz hz'
    obtain ⟨o1, o2⟩ := h.out z hz hz'
    simp only [del, hi]
    exact ⟨ring_frame o1 (fun y _ => h2 y), o2⟩

theorem del_present {cmp : Addr → Addr → Int} {sep : Addr → Addr → Prop} (hc : Sep cmp sep) {head : Addr} {s : State}
    {l : List Addr} (h : Holds cmp sep head s l) {x : Addr} (hx : x ∈ l) (hs : Safe cmp l x) :
    Holds cmp sep head (del s head x) (l.erase x) := by
  obtain ⟨gs, h, rfl⟩ := h
  obtain ⟨g, hg, hxg⟩ := List.mem_flatMap.1 hx
  obtain ⟨A, B, rfl⟩ := List.append_of_mem hg
  obtain ⟨p, f⟩ := g
  have hnd := h.nodup
  have hr := h.ring
  have hxh : x ≠ head := by intro e; subst e; exact (List.nodup_cons.1 hnd).1 hx
  have efl : flat (A ++ (p, f) :: B) = flat A ++ p :: (f ++ flat B) := by simp [flat_append, flat_cons]
  have hp := List.pairwise_append.1 h.parted
  have hfnd : (flat A ++ p :: (f ++ flat B)).Nodup := by rw [← efl]; exact (List.nodup_cons.1 hnd).2
  rcases List.mem_cons.1 hxg with e | e
  · -- the first of its group
    simp only at e
    subst e
    have hf : f = [] := by
      rcases hs with h1 | ⟨u, v, e1, y, hy, h2⟩
      · cases f with
        | nil => rfl
        | cons f0 f =>
          have h3 := (h.follow (x, f0 :: f) (by simp) f0 (by simp)).2
          refine absurd h3 (h1 f0 (by rw [efl]; simp) ?_)
          intro e; subst e; exact absurd hfnd (by grind)
      · exfalso
        rw [efl] at e1
        have hnA : x ∉ flat A := by grind
        have hnu : x ∉ u := by rw [e1] at hfnd; grind
        have h4 : flat A = u := split_unique e1 hnA hnu
        rw [← h4] at hy
        obtain ⟨g', hg', hy'⟩ := List.mem_flatMap.1 hy
        exact hc.ne _ _ (hp.2.2 g' hg' (x, f) (by simp) y hy') h2
    subst hf
    have hnA : x ∉ flat A := by simp at hfnd; grind
    have eer : (flat (A ++ (x, []) :: B)).erase x = flat (A ++ B) := by
      rw [efl, List.erase_append_right _ hnA]; simp [flat_append]
    rw [eer]
    refine ⟨A ++ B, ?_, rfl⟩
    rw [efl] at hr hnd
    simp only [List.nil_append] at hr hnd
    obtain ⟨n1, n2, n3⟩ := ring_delInit (A := head :: flat A) (B := flat B) (x := x) hr hnd (by simp)
    have hir := h.index (by simp)
    have ell : leaders (A ++ (x, []) :: B) = leaders A ++ x :: leaders B := by simp [leaders]
    rw [ell] at hir
    have hind : (leaders A ++ x :: leaders B).Nodup := by
      rw [← ell]; exact (leaders_sub _).nodup (List.nodup_cons.1 h.nodup).2
    -- the index afterwards
    have hidx : (A ++ B ≠ [] → Ring (delIndex s head x) (leaders A ++ leaders B)) ∧ Ring (delIndex s head x) [x] ∧
        ∀ z, z ∉ leaders A ++ x :: leaders B → Same s.index (delIndex s head x) z := by
      by_cases hAB : leaders A ++ leaders B = []
      · have h0 : A ++ B = [] := by simpa [leaders] using hAB
        have h1 : leaders A = [] ∧ leaders B = [] := by simpa using hAB
        rw [h1.1, h1.2] at hir
        have : nodeEmpty s x = true := self_empty hir
        have e : delIndex s head x = s.index := by simp [delIndex, this]
        rw [e]
        exact ⟨fun hh => absurd h0 hh, hir, fun z _ => ⟨rfl, rfl⟩⟩
      · have hne : nodeEmpty s x = false := ring_not_self hir hind hAB
        have hnx : nodeEmpty s (s.index.next x) = false := by
          have hrot := (Dlist.ring_rotate _ _ _ _).1 hir
          cases hBA : leaders B ++ leaders A with
          | nil => exact absurd (by simp at hBA ⊢; exact ⟨hBA.2, hBA.1⟩) hAB
          | cons y t =>
            rw [hBA] at hrot
            have hy : s.index.next x = y := hrot.1
            rw [hy]
            refine ring_not_self (A := [x]) (B := t) hrot ?_ (by simp)
            rw [List.singleton_append, ← hBA]
            grind
        have e : delIndex s head x = Dlist.delInit s.index x := by simp [delIndex, hne, hnx]
        rw [e]
        obtain ⟨i1, i2, i3⟩ := ring_delInit hir hind hAB
        exact ⟨fun _ => i1, i2, i3⟩
    obtain ⟨i1, i2, i3⟩ := hidx
    have hkeep : ∀ z, z ≠ x → z ∉ leaders A ++ leaders B → Ring s.index [z] → Ring (delIndex s head x) [z] := by
      intro z h1 h2 h3
      refine ring_frame h3 (fun y hy => i3 y ?_)
      simp at hy; subst hy
      simp at h2 ⊢
      exact ⟨h2.1, h1, h2.2⟩
    have hleadmem : ∀ z ∈ leaders A ++ leaders B, z ∈ flat A ++ flat B := fun z hz => by
      rw [← leaders_append] at hz; rw [← flat_append]; exact leaders_mem hz
    refine ⟨?_, ?_, ?_, ?_, ?_, ?_⟩
    · rw [flat_append]; exact n1
    · rw [flat_append]; grind
    · rw [leaders_append]; exact i1
    · intro g' hg' f' hf'
      have hg'' : g' ∈ A ++ (x, []) :: B := by simp at hg' ⊢; grind
      obtain ⟨f1, f2⟩ := h.follow g' hg'' f' hf'
      have hfm : f' ∈ flat A ++ flat B := by
        rw [← flat_append]; exact List.mem_flatMap.2 ⟨g', hg', by simp [all, hf']⟩
      have hfx : f' ≠ x := by intro e; subst e; simp at hfm; grind
      refine ⟨?_, f2⟩
      by_cases hl : f' ∈ leaders A ++ leaders B
      · exfalso
        obtain ⟨u, v, euv⟩ := List.append_of_mem (show f' ∈ leaders A ++ x :: leaders B by simp at hl ⊢; grind)
        have h5 := hind
        have h6 := hir
        rw [euv] at h5 h6
        have : u ++ v ≠ [] := by
          intro hn
          simp at hn
          rw [hn.1, hn.2] at euv
          have hxm : x ∈ [] ++ [f'] := by rw [← euv]; simp
          simp at hxm
          exact hfx hxm.symm
        have h7 := ring_not_self h6 h5 this
        rw [self_empty f1] at h7
        cases h7
      · exact hkeep f' hfx hl f1
    · intro z hz hz'
      by_cases hzx : z = x
      · subst hzx; exact ⟨n2, i2⟩
      · have hz2 : z ∉ flat A ++ flat B := by rw [← flat_append]; exact hz'
        obtain ⟨o1, o2⟩ := h.out z hz (by rw [efl]; simp at hz2 ⊢; grind)
        refine ⟨ring_frame o1 (fun y hy => n3 y ?_), hkeep z hzx (fun hl => hz2 (hleadmem z hl)) o2⟩
        simp at hy; subst hy; simp at hz2 ⊢; grind
    · rw [List.pairwise_append]
      exact ⟨hp.1, (List.pairwise_cons.1 hp.2.1).2, fun a ha b hb => hp.2.2 a ha b (by simp [hb])⟩
  · -- a follower
    obtain ⟨u, v, rfl⟩ := List.append_of_mem e
    have hri := (h.follow (p, u ++ x :: v) (by simp) x e).1
    have hi : delIndex s head x = s.index := by
      have : nodeEmpty s x = true := self_empty hri
      simp [delIndex, this]
    have efl2 : flat (A ++ (p, u ++ x :: v) :: B) = (flat A ++ p :: u) ++ x :: (v ++ flat B) := by rw [efl]; simp
    have efl3 : flat (A ++ (p, u ++ v) :: B) = (flat A ++ p :: u) ++ (v ++ flat B) := by simp [flat_append, flat_cons]
    have hnA : x ∉ flat A ++ p :: u := by
      rw [← efl, efl2] at hfnd
      grind
    have eer : (flat (A ++ (p, u ++ x :: v) :: B)).erase x = flat (A ++ (p, u ++ v) :: B) := by
      rw [efl2, efl3, List.erase_append_right _ hnA]; simp
    rw [eer]
    refine ⟨A ++ (p, u ++ v) :: B, ?_, rfl⟩
    rw [efl2] at hr hnd
    obtain ⟨n1, n2, n3⟩ := ring_delInit (A := head :: (flat A ++ p :: u)) (B := v ++ flat B) (x := x) (by simpa using hr)
      (by simpa using hnd) (by simp)
    refine ⟨?_, ?_, fun _ => ?_, ?_, ?_, ?_⟩
    · rw [efl3]; exact n1
    · rw [efl3]; grind
    · have : leaders (A ++ (p, u ++ v) :: B) = leaders (A ++ (p, u ++ x :: v) :: B) := by simp [leaders]
      rw [this]; simp only [del, hi]; exact h.index (by simp)
    · simp only [del, hi]
      intro g' hg' f' hf'
      simp at hg'
      rcases hg' with h1 | h1 | h1
      · exact h.follow g' (by simp [h1]) f' hf'
      · subst h1; exact h.follow (p, u ++ x :: v) (by simp) f' (by simp at hf' ⊢; grind)
      · exact h.follow g' (by simp [h1]) f' hf'
    · simp only [del, hi]
      intro z hz hz'
      rw [efl3] at hz'
      by_cases hzx : z = x
      · subst hzx; exact ⟨n2, hri⟩
      · obtain ⟨o1, o2⟩ := h.out z hz (by rw [efl2]; simp at hz' ⊢; grind)
        refine ⟨ring_frame o1 (fun y hy => n3 y ?_), o2⟩
        simp at hy; subst hy; simp at hz' ⊢; grind
    · rw [List.pairwise_append]
      refine ⟨hp.1, List.pairwise_cons.2 ⟨fun b hb e' he' => ?_, (List.pairwise_cons.1 hp.2.1).2⟩, fun a ha b hb => ?_⟩
      · exact (List.pairwise_cons.1 hp.2.1).1 b hb e' (by simp [all] at he' ⊢; grind)
      · rcases List.mem_cons.1 hb with e2 | e2
        · subst e2; exact hp.2.2 a ha (p, u ++ x :: v) (by simp)
        · exact hp.2.2 a ha b (by simp [e2])

theorem holds_fresh (cmp : Addr → Addr → Int) (sep : Addr → Addr → Prop) (head : Addr) : Holds cmp sep head fresh [] :=
  ⟨[], ⟨⟨rfl, rfl⟩, by simp, fun h => absurd rfl h, by simp, fun _ _ _ => ⟨⟨rfl, rfl⟩, ⟨rfl, rfl⟩⟩, List.Pairwise.nil⟩, rfl⟩

theorem op_sound {cmp : Addr → Addr → Int} {sep : Addr → Addr → Prop} (hc : Sep cmp sep) {head : Addr} {s : State}
    {l : List Addr} (h : Holds cmp sep head s l) (op : Op) (ok : op.Ok cmp head l) (fuel : Nat) (hf : l.length < fuel) :
    ∃ s', op.run cmp head fuel s = some s' ∧ Holds cmp sep head s' (op.spec cmp l) := by
  cases op with
  | add x =>
    simp only [Op.run, Op.spec]
    by_cases hx : x ∈ l
    · rw [if_pos hx]; exact ⟨s, add_present h hx fuel, h⟩
    · rw [if_neg hx]; exact add_absent hc h hx ok fuel hf
  | del x =>
    refine ⟨_, rfl, ?_⟩
    by_cases hx : x ∈ l
    · exact del_present hc h hx (ok.2 hx)
    · exact del_absent h hx ok.1

theorem place_length (cmp : Addr → Addr → Int) (x : Addr) (l : List Addr) : (place cmp x l).length = l.length + 1 := by
  have := congrArg List.length (List.takeWhile_append_dropWhile (p := fun y => !decide (cmp x y < 0)) (l := l))
  simp only [List.length_append] at this
  simp only [place, List.length_append, List.length_cons]
  omega

theorem spec_length (cmp : Addr → Addr → Int) (l : List Addr) (op : Op) : (op.spec cmp l).length ≤ l.length + 1 := by
  cases op with
  | add x => simp only [Op.spec]; split <;> simp [place_length]
  | del x => have := @List.length_erase_le _ _ x l; simp only [Op.spec]; omega

theorem runs {cmp : Addr → Addr → Int} {sep : Addr → Addr → Prop} (hc : Sep cmp sep) {head : Addr} {s : State}
    {l : List Addr} (h : Holds cmp sep head s l) (ops : List Op) (ok : OkAll cmp head l ops) (fuel : Nat)
    (hf : l.length + ops.length < fuel) :
    ∃ s', runAll cmp head fuel s ops = some s' ∧ Holds cmp sep head s' (specAll cmp l ops) ∧
      (specAll cmp l ops).length ≤ l.length + ops.length := by
  induction ops generalizing s l with
  | nil => exact ⟨s, rfl, h, by simp [specAll]⟩
  | cons op ops ih =>
    simp only [List.length_cons] at hf
    obtain ⟨s1, e1, h1⟩ := op_sound hc h op ok.1 fuel (by omega)
    have := spec_length cmp l op
    obtain ⟨s2, e2, h2, h3⟩ := ih h1 ok.2 (by omega)
    refine ⟨s2, ?_, h2, ?_⟩
    · simp only [runAll, e1, e2]
    · simp only [specAll, List.foldl_cons, List.length_cons] at h3 ⊢; omega

theorem mem_place {cmp : Addr → Addr → Int} {x y : Addr} {l : List Addr} : y ∈ place cmp x l ↔ y = x ∨ y ∈ l := by
  have : y ∈ l ↔ y ∈ (l.takeWhile fun y => !decide (cmp x y < 0)) ++ l.dropWhile fun y => !decide (cmp x y < 0) := by
    rw [List.takeWhile_append_dropWhile]
  rw [this]
  simp only [place, List.mem_append, List.mem_cons]
  grind

theorem sorted_place {cmp : Addr → Addr → Int} (h : Order cmp) {x : Addr} {l : List Addr} (hs : Sorted cmp l) :
    Sorted cmp (place cmp x l) := by
  induction l with
  | nil => simp [place, Sorted]
  | cons y l ih =>
    have hs' := List.pairwise_cons.1 hs
    by_cases hc : cmp x y < 0
    · have e : place cmp x (y :: l) = x :: y :: l := by simp [place, hc]
      rw [e]
      refine List.pairwise_cons.2 ⟨fun z hz => ?_, hs⟩
      rcases List.mem_cons.1 hz with rfl | hz
      · omega
      · exact h.trans _ _ _ (by omega) (hs'.1 z hz)
    · have e : place cmp x (y :: l) = y :: place cmp x l := by simp [place, hc]
      rw [e]
      refine List.pairwise_cons.2 ⟨fun z hz => ?_, ih hs'.2⟩
      rcases mem_place.1 hz with rfl | hz
      · have := h.flip y z; have := h.flip z y; omega
      · exact hs'.1 z hz

theorem sorted_spec {cmp : Addr → Addr → Int} (h : Order cmp) {l : List Addr} (hs : Sorted cmp l) (op : Op) :
    Sorted cmp (op.spec cmp l) := by
  cases op with
  | add x =>
    simp only [Op.spec]; split
    · exact hs
    · exact sorted_place h hs
  | del x => exact List.Pairwise.sublist List.erase_sublist hs

theorem sorted_all {cmp : Addr → Addr → Int} (h : Order cmp) (ops : List Op) {l : List Addr} (hs : Sorted cmp l) :
    Sorted cmp (specAll cmp l ops) := by
  induction ops generalizing l with
  | nil => exact hs
  | cons op ops ih => exact ih (sorted_spec h hs op)

/-- What a history leaves in the list: nodes added and not deleted since. -/
def alive : List Op → List Addr → Addr → Prop
  | [], l, x => x ∈ l
  | .add y :: ops, l, x => alive ops (y :: l) x
  | .del y :: ops, l, x => alive ops (l.filter (· ≠ y)) x

theorem alive_congr {ops : List Op} : ∀ {l l' : List Addr}, (∀ x, x ∈ l ↔ x ∈ l') → ∀ x, alive ops l x ↔ alive ops l' x := by
  induction ops with
  | nil => exact fun h x => h x
  | cons op ops ih =>
    intro l l' h x
    cases op with
    | add y => exact ih (fun z => by simp [h z]) x
    | del y => exact ih (fun z => by simp [h z]) x

theorem mem_specAll {cmp : Addr → Addr → Int} (ops : List Op) : ∀ {l : List Addr}, l.Nodup → ∀ x,
    x ∈ specAll cmp l ops ↔ alive ops l x := by
  induction ops with
  | nil => exact fun _ _ => Iff.rfl
  | cons op ops ih =>
    intro l hnd x
    cases op with
    | add y =>
      show x ∈ specAll cmp (Op.spec cmp l (.add y)) ops ↔ alive ops (y :: l) x
      have hnd' : (Op.spec cmp l (.add y)).Nodup := by
        simp only [Op.spec]
        split
        · exact hnd
        · rename_i hy
          have e := List.takeWhile_append_dropWhile (p := fun z => !decide (cmp y z < 0)) (l := l)
          rw [place]
          rw [← e] at hnd hy
          grind
      rw [ih hnd' x]
      refine alive_congr (fun z => ?_) x
      simp only [Op.spec]
      split
      · rename_i hy; simp; intro e; rw [e]; exact hy
      · rw [mem_place, List.mem_cons]
    | del y =>
      show x ∈ specAll cmp (l.erase y) ops ↔ alive ops (l.filter (· ≠ y)) x
      rw [ih (hnd.erase y) x]
      refine alive_congr (fun z => ?_) x
      rw [hnd.mem_erase_iff]
      simp only [List.mem_filter, decide_eq_true_eq]
      exact And.comm

/-- C25 under the exact guard of deletions that do not hit the first of several equal nodes: whatever is added and deleted, the list
a caller walks is the specified one, sorted by the callback, new nodes after the older ones they are equal to, and it holds exactly
the nodes added and not deleted since. What is missing: deleting the first of several equal nodes, see `ilist_violated`. -/
theorem ilist_histories_partial {cmp : Addr → Addr → Int} (h : Order cmp) (head : Addr) (ops : List Op)
    (ok : OkAll cmp head [] ops) (fuel : Nat) (hf : ops.length < fuel) :
    ∃ s l, runAll cmp head fuel fresh ops = some s ∧ forEach s head fuel = some l ∧ l = specAll cmp [] ops ∧ Sorted cmp l ∧
      ∀ x, x ∈ l ↔ alive ops [] x := by
  obtain ⟨s, e, hh, hl⟩ := runs (sep_order h) (holds_fresh cmp _ head) ops ok fuel (by simpa using hf)
  refine ⟨s, _, e, holds_each hh fuel (by simp at hl; omega), rfl, sorted_all h ops List.Pairwise.nil, ?_⟩
  exact mem_specAll ops List.nodup_nil

/-- C25 with additions only, in any number: no guard is needed. -/
theorem ilist_additions {cmp : Addr → Addr → Int} (h : Order cmp) (head : Addr) (xs : List Addr) (hx : head ∉ xs) (fuel : Nat)
    (hf : xs.length < fuel) :
    ∃ s l, runAll cmp head fuel fresh (xs.map .add) = some s ∧ forEach s head fuel = some l ∧ Sorted cmp l ∧
      ∀ x, x ∈ l ↔ x ∈ xs := by
  have ok : ∀ (xs : List Addr), head ∉ xs → ∀ l, OkAll cmp head l (xs.map .add) := by
    intro xs
    induction xs with
    | nil => exact fun _ _ => trivial
    | cons x xs ih => exact fun hh l => ⟨by simp at hh; exact fun e => hh.1 e.symm, ih (by simp at hh; exact hh.2) _⟩
  have hal : ∀ (xs l : List Addr) x, alive (xs.map .add) l x ↔ x ∈ xs ∨ x ∈ l := by
    intro xs
    induction xs with
    | nil => intro l x; simp [alive]
    | cons y ys ih => intro l x; simp only [List.map_cons, alive, ih, List.mem_cons]; grind
  obtain ⟨s, l, h1, h2, -, h3, h4⟩ := ilist_histories_partial h head (xs.map .add) (ok xs hx []) fuel (by simpa using hf)
  exact ⟨s, l, h1, h2, h3, fun x => by rw [h4 x, hal]; simp⟩

/-- C25 with a callback that never answers "equal", which is how the notifier chains use these lists: all deletions are fine. -/
theorem ilist_noTie {cmp : Addr → Addr → Int} (h : NoTie cmp) (head : Addr) (ops : List Op)
    (ok : ∀ op ∈ ops, op ≠ .add head ∧ op ≠ .del head) (fuel : Nat) (hf : ops.length < fuel) :
    ∃ s, runAll cmp head fuel fresh ops = some s ∧ forEach s head fuel = some (specAll cmp [] ops) := by
  have ok' : ∀ (ops : List Op), (∀ op ∈ ops, op ≠ .add head ∧ op ≠ .del head) → ∀ l, OkAll cmp head l ops := by
    intro ops
    induction ops with
    | nil => exact fun _ _ => trivial
    | cons op ops ih =>
      intro hh l
      refine ⟨?_, ih (fun o ho => hh o (by simp [ho])) _⟩
      have := hh op (by simp)
      cases op with
      | add x => exact fun e => this.1 (by rw [e])
      | del x => exact ⟨fun e => this.2 (by rw [e]), fun _ => Or.inl (fun y _ _ => h x y)⟩
  obtain ⟨s, e, hh, hl⟩ := runs (sep_noTie h) (holds_fresh cmp _ head) ops (ok' ops ok []) fuel (by simpa using hf)
  exact ⟨s, e, holds_each hh fuel (by simp at hl; omega)⟩

/-! ### The guard is needed -/

/-- Nodes 2 and 3 have key 10, node 4 key 20, node 5 key 15. -/
def keys (x : Addr) : Int := if x = 2 ∨ x = 3 then 10 else if x = 4 then 20 else 15

def byKey (a b : Addr) : Int := keys a - keys b

theorem byKey_order : Order byKey :=
  ⟨fun a b => by simp only [byKey]; omega, fun a b c h1 h2 => by simp only [byKey] at *; omega⟩

/-- C25 fails: add two equal nodes and a larger one, delete the first of the equal ones, add a node in between: it ends up after the
larger one. The second equal node never enters the index when the first one leaves. -/
theorem ilist_violated : Order byKey ∧
    ∃ s, runAll byKey 1 9 fresh [.add 2, .add 3, .add 4, .del 2, .add 5] = some s ∧ forEach s 1 9 = some [3, 4, 5] ∧
      ¬ Sorted byKey [3, 4, 5] := by
  refine ⟨byKey_order, _, rfl, by decide +kernel, ?_⟩
  simp only [Sorted]
  decide +kernel

/-- A history that meets the guard, with equal nodes, a deleted follower, a repeated addition and a deletion of a node outside. -/
example : OkAll byKey 1 [] [.add 2, .add 4, .add 3, .del 3, .add 5, .del 4, .add 5, .del 3] ∧
    specAll byKey [] [.add 2, .add 4, .add 3, .del 3, .add 5, .del 4, .add 5, .del 3] = [2, 5] := by
  have hne : ∀ x : Addr, x ≠ 1 → ∀ l, Op.Ok byKey 1 l (.add x) := fun x h _ => h
  refine ⟨⟨hne 2 (by decide) _, hne 4 (by decide) _, hne 3 (by decide) _,
    ⟨by decide, fun _ => Or.inr ⟨[2], [4], by decide, 2, by decide, by decide⟩⟩, hne 5 (by decide) _,
    ⟨by decide, fun _ => Or.inl (by decide)⟩, hne 5 (by decide) _, ⟨by decide, fun h => absurd h (by decide)⟩, trivial⟩, by decide⟩

end Bfdev.Ilist

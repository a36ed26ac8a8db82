import Verif.Memalloc.Inv
/-! Properties of the pool allocator. -/
namespace Bfdev.Memalloc

theorem first_fits : Fits firstFit := by
  intro s n a h
  exact ⟨List.mem_of_find?_eq_some h, by simpa using List.find?_some h⟩

theorem bestLoop_spec (u : Nat → Nat) (n : Nat) (l : List Nat) : ∀ (best : Option Nat) (b : Nat),
    (∀ a, best = some a → n ≤ size (u a) ∧ size (u a) = b) → (best = none → b = W - 1) →
    (∀ a, bestLoop u n l best b = some a → (a ∈ l ∨ best = some a) ∧ n ≤ size (u a) ∧ size (u a) ≤ b ∧ ∀ x ∈ l, n ≤ size (u x) → size (u a) ≤ size (u x)) ∨
    (∃ a ∈ l, bestLoop u n l best b = some a ∧ size (u a) = n) := by
  induction l with
  | nil =>
    intro best b h1 h2
    left
    intro a h
    have h : best = some a := h
    obtain ⟨h3, h4⟩ := h1 a h
    exact ⟨Or.inr h, h3, by omega, by simp⟩
  | cons c l ih =>
    intro best b h1 h2
    unfold bestLoop
    by_cases hc : size (u c) ≥ n
    · rw [if_pos hc]
      by_cases hn : size (u c) = n
      · rw [if_pos hn]
        exact Or.inr ⟨c, by simp, rfl, hn⟩
      · rw [if_neg hn]
        by_cases hb : size (u c) ≥ b
        · rw [if_pos hb]
          rcases ih best b h1 h2 with h | ⟨a, h3, h4⟩
          · left
            intro a ha
            obtain ⟨q1, q2, q3, q4⟩ := h a ha
            refine ⟨q1.imp (List.mem_cons_of_mem _) id, q2, q3, fun x hx => ?_⟩
            rcases List.mem_cons.1 hx with rfl | hx
            · intro _; omega
            · exact q4 x hx
          · exact Or.inr ⟨a, List.mem_cons_of_mem _ h3, h4⟩
        · rw [if_neg hb]
          rcases ih (some c) (size (u c)) (fun a h => by cases h; exact ⟨hc, rfl⟩) (fun h => by cases h) with h | ⟨a, h3, h4⟩
          · left
            intro a ha
            obtain ⟨q1, q2, q3, q4⟩ := h a ha
            refine ⟨Or.inl ?_, q2, by omega, fun x hx => ?_⟩
            · rcases q1 with q1 | q1
              · exact List.mem_cons_of_mem _ q1
              · cases q1; simp
            · rcases List.mem_cons.1 hx with rfl | hx
              · intro _; omega
              · exact q4 x hx
          · exact Or.inr ⟨a, List.mem_cons_of_mem _ h3, h4⟩
    · rw [if_neg hc]
      rcases ih best b h1 h2 with h | ⟨a, h3, h4⟩
      · left
        intro a ha
        obtain ⟨q1, q2, q3, q4⟩ := h a ha
        refine ⟨q1.imp (List.mem_cons_of_mem _) id, q2, q3, fun x hx => ?_⟩
        rcases List.mem_cons.1 hx with rfl | hx
        · intro h; omega
        · exact q4 x hx
      · exact Or.inr ⟨a, List.mem_cons_of_mem _ h3, h4⟩

/-- Best fit: a smallest free chunk that is large enough. -/
theorem best_fit {s : Pool} {n a : Nat} (h : bestFit s n = some a) :
    a ∈ s.free ∧ n ≤ size (s.usize a) ∧ ∀ x ∈ s.free, n ≤ size (s.usize x) → size (s.usize a) ≤ size (s.usize x) := by
  rcases bestLoop_spec s.usize n s.free none (W - 1) (fun a h => by cases h) (fun _ => rfl) with h1 | ⟨b, h1, h2, h3⟩
  · obtain ⟨q1, q2, q3, q4⟩ := h1 a h
    refine ⟨?_, q2, q4⟩
    rcases q1 with q1 | q1
    · exact q1
    · cases q1
  · have : some b = some a := h2.symm.trans h
    cases this
    exact ⟨h1, by omega, fun x _ hx => by omega⟩

theorem best_fits : Fits bestFit := fun _ _ _ h => ⟨(best_fit h).1, (best_fit h).2.1⟩

theorem bestLoop_none {u : Nat → Nat} {n : Nat} : ∀ {l : List Nat} {best : Option Nat} {b : Nat}, bestLoop u n l best b = none →
    best = none ∧ ∀ x ∈ l, size (u x) < n ∨ b ≤ size (u x) := by
  intro l
  induction l with
  | nil => intro best b h; exact ⟨h, by simp⟩
  | cons c l ih =>
    intro best b h
    unfold bestLoop at h
    by_cases hc : size (u c) ≥ n
    · rw [if_pos hc] at h
      by_cases hn : size (u c) = n
      · rw [if_pos hn] at h; cases h
      · rw [if_neg hn] at h
        by_cases hb : size (u c) ≥ b
        · rw [if_pos hb] at h
          obtain ⟨h1, h2⟩ := ih h
          refine ⟨h1, fun x hx => ?_⟩
          rcases List.mem_cons.1 hx with rfl | hx
          · exact Or.inr hb
          · exact h2 x hx
        · rw [if_neg hb] at h
          cases (ih h).1
    · rw [if_neg hc] at h
      obtain ⟨h1, h2⟩ := ih h
      refine ⟨h1, fun x hx => ?_⟩
      rcases List.mem_cons.1 hx with rfl | hx
      · exact Or.inl (by omega)
      · exact h2 x hx

theorem worstLoop_spec (u : Nat → Nat) (av n : Nat) (l : List Nat) : ∀ (best : Option Nat) (b : Nat),
    (∀ a, best = some a → n ≤ size (u a) ∧ size (u a) = b) → (∀ x ∈ l, size (u x) ≤ av) → b ≤ av →
    ∀ a, worstLoop u av n l best b = some a → (a ∈ l ∨ best = some a) ∧ n ≤ size (u a) ∧ b ≤ size (u a) ∧ ∀ x ∈ l, size (u x) ≤ size (u a) := by
  induction l with
  | nil =>
    intro best b h1 _ _ a h
    have h : best = some a := h
    obtain ⟨h3, h4⟩ := h1 a h
    exact ⟨Or.inr h, h3, by omega, by simp⟩
  | cons c l ih =>
    intro best b h1 h2 h5 a h
    unfold worstLoop at h
    have hl : ∀ x ∈ l, size (u x) ≤ av := fun x hx => h2 x (List.mem_cons_of_mem _ hx)
    have hcav := h2 c List.mem_cons_self
    by_cases hc : size (u c) ≥ n
    · rw [if_pos hc] at h
      by_cases hn : size (u c) = av
      · rw [if_pos hn] at h
        cases h
        exact ⟨Or.inl (by simp), hc, by omega, fun x hx => by rw [hn]; exact h2 x hx⟩
      · rw [if_neg hn] at h
        by_cases hb : size (u c) ≤ b
        · rw [if_pos hb] at h
          obtain ⟨q1, q2, q3, q4⟩ := ih best b h1 hl h5 a h
          refine ⟨q1.imp (List.mem_cons_of_mem _) id, q2, q3, fun x hx => ?_⟩
          rcases List.mem_cons.1 hx with rfl | hx
          · omega
          · exact q4 x hx
        · rw [if_neg hb] at h
          obtain ⟨q1, q2, q3, q4⟩ := ih (some c) (size (u c)) (fun a h => by cases h; exact ⟨hc, rfl⟩) hl hcav a h
          refine ⟨Or.inl ?_, q2, by omega, fun x hx => ?_⟩
          · rcases q1 with q1 | q1
            · exact List.mem_cons_of_mem _ q1
            · cases q1; simp
          · rcases List.mem_cons.1 hx with rfl | hx
            · omega
            · exact q4 x hx
    · rw [if_neg hc] at h
      obtain ⟨q1, q2, q3, q4⟩ := ih best b h1 hl h5 a h
      refine ⟨q1.imp (List.mem_cons_of_mem _) id, q2, q3, fun x hx => ?_⟩
      rcases List.mem_cons.1 hx with rfl | hx
      · omega
      · exact q4 x hx

theorem worstLoop_mem (u : Nat → Nat) (av n : Nat) (l : List Nat) : ∀ (best : Option Nat) (b : Nat),
    (∀ a, best = some a → n ≤ size (u a)) → ∀ a, worstLoop u av n l best b = some a → (a ∈ l ∨ best = some a) ∧ n ≤ size (u a) := by
  induction l with
  | nil => intro best b h1 a h; exact ⟨Or.inr h, h1 a h⟩
  | cons c l ih =>
    intro best b h1 a h
    unfold worstLoop at h
    by_cases hc : size (u c) ≥ n
    · rw [if_pos hc] at h
      by_cases hn : size (u c) = av
      · rw [if_pos hn] at h
        cases h
        exact ⟨Or.inl (by simp), hc⟩
      · rw [if_neg hn] at h
        by_cases hb : size (u c) ≤ b
        · rw [if_pos hb] at h
          obtain ⟨q1, q2⟩ := ih best b h1 a h
          exact ⟨q1.imp (List.mem_cons_of_mem _) id, q2⟩
        · rw [if_neg hb] at h
          obtain ⟨q1, q2⟩ := ih (some c) (size (u c)) (fun a h => by cases h; exact hc) a h
          refine ⟨Or.inl ?_, q2⟩
          rcases q1 with q1 | q1
          · exact List.mem_cons_of_mem _ q1
          · cases q1; simp
    · rw [if_neg hc] at h
      obtain ⟨q1, q2⟩ := ih best b h1 a h
      exact ⟨q1.imp (List.mem_cons_of_mem _) id, q2⟩

theorem worst_fits : Fits worstFit := by
  intro s n a h
  obtain ⟨h1, h2⟩ := worstLoop_mem s.usize s.avail n s.free none 0 (fun a h => by cases h) a h
  rcases h1 with h1 | h1
  · exact ⟨h1, h2⟩
  · cases h1

theorem worstLoop_none {u : Nat → Nat} {av n : Nat} : ∀ {l : List Nat} {best : Option Nat} {b : Nat}, worstLoop u av n l best b = none →
    best = none ∧ ∀ x ∈ l, size (u x) < n ∨ size (u x) ≤ b := by
  intro l
  induction l with
  | nil => intro best b h; exact ⟨h, by simp⟩
  | cons c l ih =>
    intro best b h
    unfold worstLoop at h
    by_cases hc : size (u c) ≥ n
    · rw [if_pos hc] at h
      by_cases hn : size (u c) = av
      · rw [if_pos hn] at h; cases h
      · rw [if_neg hn] at h
        by_cases hb : size (u c) ≤ b
        · rw [if_pos hb] at h
          obtain ⟨h1, h2⟩ := ih h
          refine ⟨h1, fun x hx => ?_⟩
          rcases List.mem_cons.1 hx with rfl | hx
          · exact Or.inr hb
          · exact h2 x hx
        · rw [if_neg hb] at h
          cases (ih h).1
    · rw [if_neg hc] at h
      obtain ⟨h1, h2⟩ := ih h
      refine ⟨h1, fun x hx => ?_⟩
      rcases List.mem_cons.1 hx with rfl | hx
      · exact Or.inl (by omega)
      · exact h2 x hx

section
variable {find : Find} {mem : Nat → Option (BitVec 8)} {base total : Nat} {s : Pool} {L : Live}

/-- C30. For every history and every search function that returns only free chunks that are large enough: the blocks held lie inside the pool,
are apart and have the alignment of the pool up to 8, and every further call on them is well defined. Sizes within 31 of 2^64 are excluded. -/
theorem pool_sound_partial (hf : Fits find) (h40 : 40 ≤ total) (hW : base + total ≤ 2 ^ 64) (h : Reach find mem base total s L) :
    Sound base total L ∧ ∀ op, ok L op → ∃ s' L', step find s L op = some (s', L') := by
  have hi := Inv.reach hf h40 hW h
  refine ⟨hi.sound h40, fun op hop => ?_⟩
  obtain ⟨s', L', e, -⟩ := step_ok hf hi hop
  exact ⟨s', L', e⟩

/-- C30. An operation keeps every block it is not about, and what is in it. -/
theorem others_kept (hf : Fits find) (h40 : 40 ≤ total) (hW : base + total ≤ 2 ^ 64) (h : Reach find mem base total s L)
    {op : Op} (hop : ok L op) {s' : Pool} {L' : Live} (hs : step find s L op = some (s', L')) {x : Nat × Nat} (hx : x ∈ L) (ht : op.target ≠ some x.1) :
    x ∈ L' ∧ ∀ i, i < x.2 → s'.mem (x.1 + i) = s.mem (x.1 + i) := by
  obtain ⟨s2, L2, e, -, h3⟩ := step_ok hf (Inv.reach hf h40 hW h) hop
  rw [hs] at e
  cases e
  exact h3 x hx ht

/-- C30. A refused request changes nothing, and a block that is granted is new. -/
theorem alloc_result (hf : Fits find) (h40 : 40 ≤ total) (hW : base + total ≤ 2 ^ 64) (h : Reach find mem base total s L)
    {n : Nat} (hn : n + 31 < 2 ^ 64) {s' : Pool} {p : Nat} (hs : alloc find s n = some (s', p)) : (p = 0 → s' = s) ∧ ∀ x ∈ L, x.1 ≠ p := by
  obtain ⟨C, hG, hR⟩ := Inv.reach hf h40 hW h
  rcases alloc_ok hf hG hn with ⟨h1, -⟩ | ⟨s1, c, C1, C2, k, D, -, h0, h1, h2, h3, h4, h5, h6, h7⟩
  · rw [hs] at h1
    cases h1
    refine ⟨fun _ => rfl, fun x hx e => ?_⟩
    obtain ⟨d, -, d2, -⟩ := hR.mem hx
    omega
  · rw [hs] at h2
    cases h2
    refine ⟨fun h => by omega, fun x hx e => ?_⟩
    obtain ⟨d, d1, d2, -⟩ := hR.mem hx
    subst h0
    have := others hG.1.lay d (by rw [U_append, U_free _ _ h1] at d1; rw [U_append]; exact d1)
    omega

/-- C77. A resized block holds what it held, and a refused one is left as it was. -/
theorem realloc_keeps (hf : Fits find) (h40 : 40 ≤ total) (hW : base + total ≤ 2 ^ 64) (h : Reach find mem base total s L)
    {p r n : Nat} (hp : (p, r) ∈ L) (hn : n + 31 < 2 ^ 64) {s' : Pool} {q : Nat} (hs : realloc find s p n = some (s', q)) :
    (q = 0 → s' = s) ∧ (q ≠ 0 → ∀ i, i < r → s'.mem (q + i) = s.mem (p + i)) := by
  obtain ⟨C, hG, hR⟩ := Inv.reach hf h40 hW h
  obtain ⟨c, c1, c2, -, c3, -⟩ := hR.mem hp
  obtain ⟨c4, c5⟩ := U_mem.1 c1
  obtain ⟨C1, C2, rfl⟩ := List.append_of_mem c4
  have c2 : c.addr + hdr = p := c2
  have c3 : r ≤ c.size := c3
  subst c2
  rcases realloc_ok hf hG c5 hn with ⟨h1, -⟩ | ⟨s1, C', d, h1, h2, h3, h4, h5, h6, h7, h8⟩
  · rw [hs] at h1
    cases h1
    exact ⟨fun _ => rfl, fun h => absurd rfl h⟩
  · rw [hs] at h1
    cases h1
    exact ⟨fun h => by omega, fun _ i hi => h7 i (by omega)⟩

/-- C77. Shrinking leaves the block where it is, as long as that much memory is available elsewhere in the pool. -/
theorem shrink_partial (hf : Fits find) (h40 : 40 ≤ total) (hW : base + total ≤ 2 ^ 64) (h : Reach find mem base total s L)
    {p r n : Nat} (hp : (p, r) ∈ L) (hn : n ≤ r) (hav : align n ≤ s.avail) : realloc find s p n = some (s, p) := by
  obtain ⟨C, hG, hR⟩ := Inv.reach hf h40 hW h
  obtain ⟨c, c1, c2, c3, -, c6⟩ := hR.mem hp
  obtain ⟨c4, c5⟩ := U_mem.1 c1
  obtain ⟨C1, C2, rfl⟩ := List.append_of_mem c4
  have c2 : c.addr + hdr = p := c2
  have c3 : align r ≤ c.size := c3
  have c6 : r + 31 < W := c6
  subst c2
  have hle : align n ≤ align r := by
    unfold align
    rw [Nat.mod_eq_of_lt (by omega), Nat.mod_eq_of_lt c6]
    omega
  obtain ⟨f1, -⟩ := hG.1.facts
  unfold realloc
  dsimp only
  rw [if_neg (by omega), Nat.add_sub_cancel, f1, if_pos (by omega)]

/-- C30. When nothing is held, the pool is as it was at the beginning: one free chunk with all the memory. -/
theorem all_free (hf : Fits find) (h40 : 40 ≤ total) (hW : base + total ≤ 2 ^ 64) (h : Reach find mem base total s []) :
    s.block = [base] ∧ s.free = [base] ∧ s.avail = (init mem base total).avail ∧ s.usize base = (init mem base total).usize base := by
  obtain ⟨C, hG, hR⟩ := Inv.reach hf h40 hW h
  obtain ⟨C0, hG0, hR0⟩ := Inv.init (mem := mem) h40 hW
  have one : ∀ {t : Pool} {D : List Chunk}, Good t D base (fin base total) (total % 2) → U D = [] → D = [⟨base, (total - 40) / 2 * 2, false⟩] := by
    intro t D hD hU
    obtain ⟨hcore, b, hco⟩ := hD
    have hlay := hcore.lay
    unfold fin at hlay
    cases D with
    | nil => simp only [Lay] at hlay; omega
    | cons c D =>
      obtain ⟨l1, l2⟩ := hlay
      have hcu : c.used = false := by
        cases hu : c.used with
        | false => rfl
        | true => rw [U_used _ _ hu] at hU; cases hU
      cases D with
      | nil =>
        simp only [Lay] at l2
        obtain ⟨x, y, z⟩ := c
        simp only at l1 l2 hcu ⊢
        rw [l1, hcu, show y = (total - 40) / 2 * 2 by omega]
      | cons d D =>
        obtain ⟨-, q, -⟩ := hco
        rw [U_free _ _ hcu] at hU
        rcases q with q | q
        · rw [hcu] at q; cases q
        · rw [U_used _ _ q] at hU; cases hU
  have hU : U C = [] := by
    obtain ⟨Z, h1, h2, h3⟩ := hR
    have : Z = [] := by simpa using h1.symm
    subst this
    exact (List.nil_perm.1 h2)
  have hU0 : U C0 = [] := by
    obtain ⟨Z, h1, h2, h3⟩ := hR0
    have : Z = [] := by simpa using h1.symm
    subst this
    exact (List.nil_perm.1 h2)
  have e1 := one hG hU
  have e2 := one hG0 hU0
  subst e1 e2
  refine ⟨hG.1.blk, ?_, by rw [hG.1.av, hG0.1.av], ?_⟩
  · have : s.free.Perm [base] := by
      rw [List.perm_ext_iff_of_nodup hG.1.fnd (by simp)]
      intro a
      rw [hG.1.f]
      constructor
      · rintro ⟨c, h1, h2, -⟩
        rw [List.mem_singleton] at h1
        subst h1
        exact List.mem_singleton.2 h2.symm
      · intro h1
        rw [List.mem_singleton] at h1
        exact ⟨_, List.mem_singleton.2 rfl, h1.symm, rfl⟩
    exact List.perm_singleton.1 this
  · rw [hG.1.us _ (List.mem_singleton.2 rfl), hG0.1.us _ (List.mem_singleton.2 rfl)]

/-- C78. A request is refused only when no gap between the blocks held has room for it and its header: free memory next to free memory is one gap. -/
theorem refused (hf : Fits find) (hc : Finds find) (h40 : 40 ≤ total) (hW : base + total ≤ 2 ^ 64) (h : Reach find mem base total s L)
    {n : Nat} (h0 : 0 < n) (hn : n + 31 < 2 ^ 64) {s' : Pool} (hs : alloc find s n = some (s', 0)) {lo : Nat} (hlo : base ≤ lo)
    (hhi : lo + (40 + (n + 31) / 32 * 32) ≤ base + total / 2 * 2) : ¬ Gap s L lo (40 + (n + 31) / 32 * 32) := by
  intro hgap
  obtain ⟨C, hG, hR⟩ := Inv.reach hf h40 hW h
  have hal : align n = (n + 31) / 32 * 32 := by
    unfold align
    rw [Nat.mod_eq_of_lt hn]
  rcases alloc_ok hf hG hn with ⟨h1, h2⟩ | ⟨s1, c, C1, C2, k, D, -, e0, e1, e2, -⟩
  · obtain ⟨b, hco⟩ := hG.2
    obtain ⟨c, c1, c2, c3, c4⟩ := gap_chunk (lo := lo) (len := 40 + (n + 31) / 32 * 32) hG.1.lay hco hlo (by omega) (by unfold fin; omega) (by
      intro c c1 c2
      obtain ⟨Z, z1, z2, z3⟩ := hR
      have : c ∈ Z.map (·.1) := z2.mem_iff.2 (U_mem.2 ⟨c1, c2⟩)
      obtain ⟨z, hz, rfl⟩ := List.mem_map.1 this
      have hg := hgap (z.1.addr + hdr, z.2) (by rw [z1]; exact List.mem_map.2 ⟨z, hz, rfl⟩)
      obtain ⟨D1, D2, rfl⟩ := List.append_of_mem c1
      obtain ⟨f1, -⟩ := hG.1.facts
      dsimp only at hg
      rw [show z.1.addr + hdr - 40 = z.1.addr by omega, f1] at hg
      exact hg)
    obtain ⟨D1, D2, rfl⟩ := List.append_of_mem c1
    obtain ⟨f1, f2, f3, f4, f5, f6, f7, f8, f9, f10, f11⟩ := hG.1.facts
    have hav := f10 c2
    have hnone := h2 (by omega)
    have := hc s (align n) (by omega) (by
      intro a ha
      obtain ⟨d, d1, rfl, d3⟩ := (hG.1.f a).1 ha
      have d4 := (lay_bounds hG.1.lay).2 d d1
      have d5 := hG.1.small
      rw [hG.1.us d d1, size_word _ _ (hG.1.even d d1)]
      have : (W : Nat) = 2 ^ 64 := rfl
      omega) hnone c.addr (f8 c2)
    omega
  · rw [hs] at e2
    injection e2 with e2
    injection e2 with _ e2
    omega

/-- C78. Worst fit: a largest free chunk. -/
theorem worst_fit (hf : Fits find) (h40 : 40 ≤ total) (hW : base + total ≤ 2 ^ 64) (h : Reach find mem base total s L)
    {n a : Nat} (hs : worstFit s n = some a) : a ∈ s.free ∧ n ≤ size (s.usize a) ∧ ∀ x ∈ s.free, size (s.usize x) ≤ size (s.usize a) := by
  obtain ⟨C, hG, hR⟩ := Inv.reach hf h40 hW h
  obtain ⟨h1, h2, -, h3⟩ := worstLoop_spec s.usize s.avail n s.free none 0 (fun a h => by cases h) (by
    intro x hx
    obtain ⟨d, d1, rfl, d3⟩ := (hG.1.f x).1 hx
    obtain ⟨D1, D2, rfl⟩ := List.append_of_mem d1
    obtain ⟨f1, f2, f3, f4, f5, f6, f7, f8, f9, f10, f11⟩ := hG.1.facts
    rw [f1]
    exact f10 d3) (by omega) a hs
  rcases h1 with h1 | h1
  · exact ⟨h1, h2, h3⟩
  · cases h1

end

/-- C78. First fit: the first free chunk of the list that is large enough. -/
theorem first_fit {s : Pool} {n a : Nat} (h : firstFit s n = some a) :
    ∃ l l', s.free = l ++ a :: l' ∧ n ≤ size (s.usize a) ∧ ∀ x ∈ l, size (s.usize x) < n := by
  obtain ⟨h1, l, l', h2, h3⟩ := List.find?_eq_some_iff_append.1 h
  exact ⟨l, l', h2, by simpa using h1, fun x hx => by simpa using h3 x hx⟩

theorem first_finds : Finds firstFit := by
  intro s n _ _ h a ha
  simpa using List.find?_eq_none.1 h a ha

theorem best_finds : Finds bestFit := by
  intro s n _ hW h a ha
  rcases (bestLoop_none h).2 a ha with h1 | h1
  · exact h1
  · have := hW a ha
    have e : (W : Nat) = 2 ^ 64 := rfl
    omega

theorem worst_finds : Finds worstFit := by
  intro s n h0 _ h a ha
  rcases (worstLoop_none h).2 a ha with h1 | h1
  · exact h1
  · omega

/-- A history: two blocks, the first released, the second grown into new memory, written and read. -/
def demo (find : Find) : Option (Pool × Live) :=
  (step find (init (fun _ => none) 4096 1024) [] (.alloc 10)).bind fun r =>
  (step find r.1 r.2 (.alloc 100)).bind fun r =>
  (step find r.1 r.2 (.write 4208 3 7#8)).bind fun r =>
  (step find r.1 r.2 (.free 4136)).bind fun r =>
  (step find r.1 r.2 (.alloc 50)).bind fun r =>
  step find r.1 r.2 (.realloc 4208 300)

theorem demo_result : (demo firstFit).map (fun r => (r.2, r.1.avail, r.1.mem 4483)) = some ([(4480, 300), (4376, 50)], 480, some 7#8) := by
  decide +kernel

instance (L : Live) (op : Op) : Decidable (ok L op) :=
  match op with
  | .alloc n => inferInstanceAs (Decidable (n + 31 < 2 ^ 64))
  | .free p => decidable_of_iff (∃ x ∈ L, x.1 = p) ⟨fun ⟨x, h, e⟩ => ⟨x.2, by rw [← e]; exact h⟩, fun ⟨r, h⟩ => ⟨_, h, rfl⟩⟩
  | .realloc p n => decidable_of_iff ((∃ x ∈ L, x.1 = p) ∧ n + 31 < 2 ^ 64)
      ⟨fun ⟨⟨x, h, e⟩, h2⟩ => ⟨⟨x.2, by rw [← e]; exact h⟩, h2⟩, fun ⟨⟨r, h⟩, h2⟩ => ⟨⟨_, h, rfl⟩, h2⟩⟩
  | .write p i _ => decidable_of_iff (∃ x ∈ L, x.1 = p ∧ i < x.2) ⟨fun ⟨x, h, e, hi⟩ => ⟨x.2, by rw [← e]; exact h, hi⟩, fun ⟨r, h, hi⟩ => ⟨_, h, rfl, hi⟩⟩

/-- Running a list of operations, checking what the user owes. -/
def run (find : Find) : List Op → Pool × Live → Option (Pool × Live)
  | [], r => some r
  | op :: l, r => if ok r.2 op then (step find r.1 r.2 op).bind (run find l) else none

theorem reach_run {find : Find} {mem : Nat → Option (BitVec 8)} {base total : Nat} : ∀ {l : List Op} {s : Pool} {L : Live} {r : Pool × Live},
    Reach find mem base total s L → run find l (s, L) = some r → Reach find mem base total r.1 r.2 := by
  intro l
  induction l with
  | nil => intro s L r h e; cases e; exact h
  | cons op l ih =>
    intro s L r h e
    unfold run at e
    by_cases ho : ok L op
    · rw [if_pos ho] at e
      obtain ⟨⟨s', L'⟩, e1, e2⟩ := Option.bind_eq_some_iff.1 e
      exact ih (.step h ho e1) e2
    · rw [if_neg ho] at e; cases e

/-- The hypotheses are met by a pool after a history with two blocks held and a gap between free chunks. -/
example : ∃ s, Reach bestFit (fun _ => none) 4096 1024 s [(4480, 300), (4376, 50)] := by
  have h : ∃ s, run bestFit [.alloc 10, .alloc 100, .write 4208 3 7#8, .free 4136, .alloc 50, .realloc 4208 300] (init (fun _ => none) 4096 1024, []) =
      some (s, [(4480, 300), (4376, 50)]) := by
    have e : (run bestFit [.alloc 10, .alloc 100, .write 4208 3 7#8, .free 4136, .alloc 50, .realloc 4208 300]
      (init (fun _ => none) 4096 1024, [])).map (·.2) = some [(4480, 300), (4376, 50)] := by decide +kernel
    obtain ⟨⟨s, L⟩, e1, e2⟩ := Option.map_eq_some_iff.1 e
    exact ⟨s, by rw [e1]; cases e2; rfl⟩
  obtain ⟨s, h⟩ := h
  exact ⟨s, reach_run .new h⟩

/-- A history that gives everything back. -/
example : (run worstFit [.alloc 10, .alloc 100, .alloc 50, .free 4208, .free 4136, .free 4376] (init (fun _ => none) 4096 1024, [])).map
    (fun r => (r.2, r.1.block, r.1.free, r.1.avail)) = some ([], [4096], [4096], 984) := by decide +kernel

/-- A refused request: 64 and 48 bytes are free, but apart. -/
example : (run firstFit [.alloc 64, .alloc 32, .free 4136] (init (fun _ => none) 4096 264, [])).bind (fun r => (alloc firstFit r.1 100).map (·.2)) = some 0 := by
  decide +kernel

/-- C30. A request just below 2^64 bytes is rounded to zero and granted in a pool of 1024 bytes. -/
theorem huge_violated : ∃ s' p, alloc firstFit (init (fun _ => none) 4096 1024) (2 ^ 64 - 1) = some (s', p) ∧ p ≠ 0 ∧ ¬ p + (2 ^ 64 - 1) ≤ 4096 + 1024 := by
  have e : (alloc firstFit (init (fun _ => none) 4096 1024) (2 ^ 64 - 1)).map (·.2) = some 4136 := by decide +kernel
  obtain ⟨⟨s, p⟩, e1, e2⟩ := Option.map_eq_some_iff.1 e
  have e2 : p = 4136 := e2
  exact ⟨s, p, e1, by omega, by omega⟩

/-- C30. Blocks are not aligned to 32, the granularity of sizes, nor to 16, even in a pool that is. -/
theorem align_violated : ∃ s' p, alloc firstFit (init (fun _ => none) 4096 1024) 32 = some (s', p) ∧ p ≠ 0 ∧ p % 16 ≠ 0 := by
  have e : (alloc firstFit (init (fun _ => none) 4096 1024) 32).map (·.2) = some 4136 := by decide +kernel
  obtain ⟨⟨s, p⟩, e1, e2⟩ := Option.map_eq_some_iff.1 e
  have e2 : p = 4136 := e2
  exact ⟨s, p, e1, by omega, by omega⟩

/-- C77. Shrinking a block to 10 bytes fails when the rest of the pool is used up. -/
theorem shrink_violated : ∃ s, Reach firstFit (fun _ => none) 4096 136 s [(4136, 96)] ∧ realloc firstFit s 4136 10 = some (s, 0) := by
  have e : ((run firstFit [.alloc 96] (init (fun _ => none) 4096 136, [])).map fun r => (r.2, r.1.avail)) = some ([(4136, 96)], 0) := by
    decide +kernel
  obtain ⟨⟨s, L⟩, e1, e2⟩ := Option.map_eq_some_iff.1 e
  injection e2 with e2 e3
  have e2 : L = [(4136, 96)] := e2
  have e3 : s.avail = 0 := e3
  subst e2
  refine ⟨s, reach_run .new e1, ?_⟩
  unfold realloc
  dsimp only
  rw [if_pos]
  rw [e3]
  decide +kernel

end Bfdev.Memalloc

import Verif.Memalloc.Calls
/-! The invariant of histories. -/
namespace Bfdev.Memalloc

/-- The blocks held are the data of the chunks in use. -/
def Rel (L : Live) (V : List Chunk) : Prop :=
  ∃ Z : List (Chunk × Nat), L = Z.map (fun z => (z.1.addr + hdr, z.2)) ∧ (Z.map (·.1)).Perm V ∧ ∀ z ∈ Z, z.2 + 31 < W ∧ align z.2 ≤ z.1.size

theorem Rel.add {L : Live} {V V' : List Chunk} (h : Rel L V) {d : Chunk} (hp : V'.Perm (d :: V)) {n : Nat} (hn : n + 31 < W) (hd : align n ≤ d.size) :
    Rel ((d.addr + hdr, n) :: L) V' := by
  obtain ⟨Z, h1, h2, h3⟩ := h
  refine ⟨(d, n) :: Z, by simp [h1], ?_, ?_⟩
  · exact (h2.cons d).trans hp.symm
  · intro z hz
    rcases List.mem_cons.1 hz with rfl | hz
    · exact ⟨hn, hd⟩
    · exact h3 z hz

theorem Rel.del {L : Live} {V V' : List Chunk} (h : Rel L V) {c : Chunk} (hp : V.Perm (c :: V')) (hne : ∀ x ∈ V', x.addr ≠ c.addr) :
    Rel (L.filter fun x => x.1 ≠ c.addr + hdr) V' := by
  obtain ⟨Z, h1, h2, h3⟩ := h
  refine ⟨Z.filter (fun z => z.1.addr + hdr ≠ c.addr + hdr), ?_, ?_, ?_⟩
  · rw [h1, List.filter_map]; rfl
  · have e : (Z.filter (fun z => z.1.addr + hdr ≠ c.addr + hdr)).map (·.1) = (Z.map (·.1)).filter (fun z => z.addr + hdr ≠ c.addr + hdr) := by
      rw [List.filter_map]; rfl
    rw [e]
    refine ((h2.trans hp).filter _).trans ?_
    rw [List.filter_cons, if_neg (by simp), List.filter_eq_self.2]
    intro x hx
    have := hne x hx
    simp only [decide_eq_true_eq]
    omega
  · intro z hz
    exact h3 z (List.mem_filter.1 hz).1

theorem Rel.mem {L : Live} {V : List Chunk} (h : Rel L V) {x : Nat × Nat} (hx : x ∈ L) :
    ∃ c ∈ V, c.addr + hdr = x.1 ∧ align x.2 ≤ c.size ∧ x.2 ≤ c.size ∧ x.2 + 31 < W := by
  obtain ⟨Z, h1, h2, h3⟩ := h
  rw [h1] at hx
  obtain ⟨z, hz, rfl⟩ := List.mem_map.1 hx
  obtain ⟨h4, h5⟩ := h3 z hz
  have := (align_ok h4).1
  exact ⟨z.1, h2.mem_iff.1 (List.mem_map.2 ⟨z, hz, rfl⟩), rfl, h5, by dsimp only; omega, h4⟩

def fin (base total : Nat) : Nat := base + 40 + (total - 40) / 2 * 2

def Inv (base total : Nat) (s : Pool) (L : Live) : Prop := ∃ C, Good s C base (fin base total) (total % 2) ∧ Rel L (U C)

theorem U_mem {C : List Chunk} {c : Chunk} : c ∈ U C ↔ c ∈ C ∧ c.used = true := by
  unfold U; rw [List.mem_filter]

theorem Inv.init {mem : Nat → Option (BitVec 8)} {base total : Nat} (h40 : 40 ≤ total) (hW : base + total ≤ W) :
    Inv base total (init mem base total) [] := by
  have hs : sub total hdr = total - 40 := by
    unfold sub
    rcases Nat.lt_or_ge total W with h | h
    · exact sub_ok h40 h
    · have : total = W := by omega
      subst this
      rw [show W + W - hdr = (W - 40) + W by omega, Nat.add_mod_right, Nat.mod_eq_of_lt (by omega)]
  refine ⟨[⟨base, (total - 40) / 2 * 2, false⟩], ⟨⟨?_, ?_, rfl, ?_, ?_, ?_, ?_, ?_, ?_⟩, false, Or.inl rfl, rfl⟩, [], rfl, by simp [U], by simp⟩
  · exact ⟨rfl, rfl⟩
  · unfold fin; omega
  · intro c hc
    rw [List.mem_singleton] at hc
    subst hc
    show (if base = base then word (sub total hdr) false else 0) = _
    rw [if_pos rfl, hs]
    unfold word
    dsimp only
    omega
  · intro c hc
    rw [List.mem_singleton] at hc
    subst hc
    dsimp only; omega
  · intro c hc
    rw [List.mem_singleton] at hc
    subst hc
    rfl
  · show [base].Nodup
    simp
  · intro a
    show a ∈ [base] ↔ _
    rw [List.mem_singleton]
    exact ⟨fun h => ⟨_, List.mem_singleton.2 rfl, h.symm, rfl⟩, fun ⟨c, h1, h2, _⟩ => by rw [List.mem_singleton] at h1; subst h1; exact h2.symm⟩
  · show sub total hdr = _
    rw [hs]
    show _ = (total - 40) / 2 * 2 + 0 + total % 2
    omega

theorem others {p e : Nat} {C1 C2 : List Chunk} {c : Chunk} (h : Lay p (C1 ++ c :: C2) e) : ∀ x ∈ U (C1 ++ C2), x.addr ≠ c.addr := by
  obtain ⟨k1, k2, k3, k4⟩ := not_mem_around h
  intro x hx
  rcases List.mem_append.1 (U_mem.1 hx).1 with h | h
  · exact k3 x h
  · exact k4 x h

/-- Every allowed operation is defined and keeps the invariant and what the other blocks hold. -/
theorem step_ok {find : Find} (hfit : Fits find) {base total : Nat} {s : Pool} {L : Live} (h : Inv base total s L) {op : Op} (hop : ok L op) :
    ∃ s' L', step find s L op = some (s', L') ∧ Inv base total s' L' ∧
      ∀ x ∈ L, op.target ≠ some x.1 → x ∈ L' ∧ ∀ i, i < x.2 → s'.mem (x.1 + i) = s.mem (x.1 + i) := by
  obtain ⟨C, hG, hR⟩ := h
  cases op with
  | alloc n =>
    rcases alloc_ok hfit hG hop with ⟨h1, -⟩ | ⟨s', c, C1, C2, k, D, -, h0, h1, h2, h3, h4, h5, h6, h7⟩
    · exact ⟨s, L, by simp only [step, h1, Option.map_some, if_true], ⟨C, hG, hR⟩, fun x hx _ => ⟨hx, fun _ _ => rfl⟩⟩
    · refine ⟨s', (c.addr + hdr, n) :: L, ?_, ⟨_, h3, ?_⟩, ?_⟩
      · simp only [step, h2, Option.map_some]
        rw [if_neg (by omega)]
      · refine hR.add (d := ⟨c.addr, k, true⟩) ?_ hop h5
        refine (U_perm_mid _ _ _ rfl).trans ?_
        rw [h0, U_append, U_append, h4, U_append, U_free _ _ h1]
        exact List.Perm.refl _
      · intro x hx _
        refine ⟨List.mem_cons_of_mem _ hx, fun i hi => ?_⟩
        obtain ⟨d, d1, d2, -, d3, -⟩ := hR.mem hx
        exact h7 _ ⟨d, (U_mem.1 d1).1, (U_mem.1 d1).2, by omega, by omega⟩
  | free p =>
    obtain ⟨r, hr⟩ := hop
    obtain ⟨c, c1, c2, -, c3, -⟩ := hR.mem hr
    obtain ⟨c4, c5⟩ := U_mem.1 c1
    obtain ⟨C1, C2, rfl⟩ := List.append_of_mem c4
    have c2 : c.addr + hdr = p := c2
    subst c2
    obtain ⟨s', C', h1, h2, h3, h4⟩ := free_ok hG c5
    have hR' := hR.del (U_perm_mid C1 C2 c c5) (others hG.1.lay)
    refine ⟨s', L.filter fun x => x.1 ≠ c.addr + hdr, by simp only [step, h1, Option.map_some], ⟨C', h2, by rw [h3]; exact hR'⟩, ?_⟩
    intro x hx hne
    have hx' : x ∈ L.filter fun x => x.1 ≠ c.addr + hdr := List.mem_filter.2 ⟨hx, by
      simp only [ne_eq, decide_not, Bool.not_eq_true', decide_eq_false_iff_not]
      exact fun e => hne (by rw [e]; rfl)⟩
    refine ⟨hx', fun i hi => ?_⟩
    obtain ⟨d, d1, d2, -, d3, -⟩ := hR'.mem hx'
    exact h4 _ ⟨d, (U_mem.1 d1).1, (U_mem.1 d1).2, by omega, by omega⟩
  | realloc p n =>
    obtain ⟨⟨r, hr⟩, hn⟩ := hop
    obtain ⟨c, c1, c2, -, c3, -⟩ := hR.mem hr
    obtain ⟨c4, c5⟩ := U_mem.1 c1
    obtain ⟨C1, C2, rfl⟩ := List.append_of_mem c4
    have c2 : c.addr + hdr = p := c2
    subst c2
    rcases realloc_ok hfit hG c5 hn with ⟨h1, -⟩ | ⟨s', C', d, h1, h2, h3, h4, h5, h6, h7, h8⟩
    · exact ⟨s, L, by simp only [step, h1, Option.map_some, if_true], ⟨_, hG, hR⟩, fun x hx _ => ⟨hx, fun _ _ => rfl⟩⟩
    · have hR' := hR.del (U_perm_mid C1 C2 c c5) (others hG.1.lay)
      refine ⟨s', (d.addr + hdr, n) :: L.filter fun x => x.1 ≠ c.addr + hdr, ?_, ⟨C', h2, hR'.add h5 hn h4⟩, ?_⟩
      · simp only [step, h1, Option.map_some]
        rw [if_neg (by omega)]
      · intro x hx hne
        have hx' : x ∈ L.filter fun x => x.1 ≠ c.addr + hdr := List.mem_filter.2 ⟨hx, by
          simp only [ne_eq, decide_not, Bool.not_eq_true', decide_eq_false_iff_not]
          exact fun e => hne (by rw [e]; rfl)⟩
        refine ⟨List.mem_cons_of_mem _ hx', fun i hi => ?_⟩
        obtain ⟨d, d1, d2, -, d3, -⟩ := hR'.mem hx'
        exact h6 _ ⟨d, (U_mem.1 d1).1, (U_mem.1 d1).2, by omega, by omega⟩
  | write p i v =>
    refine ⟨_, L, rfl, ⟨C, hG.mem _, hR⟩, ?_⟩
    intro x hx hne
    refine ⟨hx, fun j hj => if_neg fun e => ?_⟩
    obtain ⟨r, hr, hi⟩ := hop
    obtain ⟨c, c1, c2, -, c3, -⟩ := hR.mem hr
    obtain ⟨d, d1, d2, -, d3, -⟩ := hR.mem hx
    have c2 : c.addr + hdr = p := c2
    have c3 : r ≤ c.size := c3
    rcases lay_apart hG.1.lay (U_mem.1 c1).1 (U_mem.1 d1).1 with h | h | h
    · subst h
      exact hne (by rw [← d2, c2]; rfl)
    · omega
    · omega

theorem Inv.reach {find : Find} (hfit : Fits find) {mem : Nat → Option (BitVec 8)} {base total : Nat} (h40 : 40 ≤ total) (hW : base + total ≤ W)
    {s : Pool} {L : Live} (h : Reach find mem base total s L) : Inv base total s L := by
  induction h with
  | new => exact Inv.init h40 hW
  | step _ h2 h3 ih =>
    obtain ⟨s', L', e, h4, -⟩ := step_ok hfit ih h2
    rw [h3] at e
    cases e
    exact h4

theorem Inv.sound {base total : Nat} (h40 : 40 ≤ total) {s : Pool} {L : Live} (h : Inv base total s L) : Sound base total L := by
  obtain ⟨C, hG, hR⟩ := h
  refine ⟨fun x hx => ?_, ?_, fun x hx => ?_⟩
  · obtain ⟨c, c1, c2, -, c3, -⟩ := hR.mem hx
    have := (lay_bounds hG.1.lay).2 c (U_mem.1 c1).1
    unfold fin at this
    omega
  · obtain ⟨Z, h1, h2, h3⟩ := hR
    have hp : (U C).Pairwise fun x y => x.addr + hdr + x.size ≤ y.addr ∨ y.addr + hdr + y.size ≤ x.addr :=
      ((lay_pairwise hG.1.lay).filter _).imp fun h => Or.inl h
    have hp2 := (h2.pairwise_iff (fun {x y} h => h.symm)).2 hp
    rw [h1, List.pairwise_map]
    rw [List.pairwise_map] at hp2
    refine hp2.imp_of_mem ?_
    intro x y hx hy hxy
    have a1 := h3 x hx
    have a2 := h3 y hy
    have a3 := (align_ok a1.1).1
    have a4 := (align_ok a2.1).1
    dsimp only
    omega
  · obtain ⟨c, c1, c2, -⟩ := hR.mem hx
    have := hG.1.al c (U_mem.1 c1).1
    omega

/-- A gap lies in one free chunk. -/
theorem gap_chunk {C : List Chunk} : ∀ {p e lo len : Nat} {b : Bool}, Lay p C e → Coal true C b → p ≤ lo → 0 < len → lo + len ≤ e →
    (∀ c ∈ C, c.used = true → lo + len ≤ c.addr ∨ c.addr + hdr + c.size ≤ lo) →
    ∃ c ∈ C, c.used = false ∧ c.addr ≤ lo ∧ lo + len ≤ c.addr + hdr + c.size := by
  induction C with
  | nil =>
    intro p e lo len b h1 _ h3 h4 h5 _
    simp only [Lay] at h1
    omega
  | cons c C ih =>
    intro p e lo len b h1 h2 h3 h4 h5 h6
    obtain ⟨l1, l2⟩ := h1
    obtain ⟨-, q⟩ := h2
    rcases Nat.lt_or_ge lo (c.addr + hdr + c.size) with h | h
    · have hcu : c.used = false := by
        cases hu : c.used with
        | false => rfl
        | true => have := h6 c (by simp) hu; omega
      rcases Nat.lt_or_ge (c.addr + hdr + c.size) (lo + len) with h' | h'
      · exfalso
        cases C with
        | nil => simp only [Lay] at l2; omega
        | cons d D =>
          have hd : d.used = true := by
            rcases q.1 with q | q
            · rw [hcu] at q; cases q
            · exact q
          have := h6 d (by simp) hd
          have := l2.1
          omega
      · exact ⟨c, by simp, hcu, by omega, h'⟩
    · obtain ⟨b', q'⟩ := coal_true q
      obtain ⟨d, d1, d2⟩ := ih l2 q' (by omega) h4 h5 (fun x hx hu => h6 x (by simp [hx]) hu)
      exact ⟨d, by simp [d1], d2⟩

end Bfdev.Memalloc

import Verif.Memalloc.Lemmas
/-! The calls on the chunks of the pool. -/
namespace Bfdev.Memalloc

/-- The chunks in use. -/
def U (C : List Chunk) : List Chunk := C.filter (·.used)

theorem U_append (C D : List Chunk) : U (C ++ D) = U C ++ U D := List.filter_append ..
theorem U_used (c : Chunk) (C : List Chunk) (h : c.used = true) : U (c :: C) = c :: U C := by simp [U, h]
theorem U_free (c : Chunk) (C : List Chunk) (h : c.used = false) : U (c :: C) = U C := by simp [U, h]

/-- The pool holds these chunks and no two neighbours are free. -/
def Good (s : Pool) (C : List Chunk) (base e r : Nat) : Prop := Core s C base e r ∧ ∃ b, Coal true C b

theorem size_size (u : Nat) (b : Bool) : size (word (size u) b) = size u := size_word _ _ (by unfold size; omega)

theorem free_eq (s : Pool) (a : Nat) :
    ∃ m, free s (a + hdr) = ((mergeNext ⟨s.block, a :: s.free, (s.avail + size (s.usize a)) % W,
      fun x => if x = a then word (size (s.usize a)) false else s.usize x, m⟩ a).bind fun s => mergePrev s a) ∧
      ∀ x, (∀ c ∈ s.free, ¬ (c ≤ x ∧ x < c + hdr)) → ¬ (a ≤ x ∧ x < a + hdr) → m x = s.mem x := by
  refine ⟨((s.setUsed a false).pushFree a).mem, ?_, fun x h1 h2 => ?_⟩
  · unfold free
    dsimp only
    rw [Nat.add_sub_cancel]
    congr 2
    simp only [Pool.pushFree, Pool.setUsed, Pool.put, Pool.touch, if_true, size_size]
  · refine (touch_mem ?_).trans (touch_mem (by simpa using h2))
    intro c hc
    rcases List.mem_cons.1 hc with rfl | hc
    · exact h2
    · exact h1 c hc

theorem mergeNext_ok {s : Pool} {C1 C2 : List Chunk} {c : Chunk} {base e r : Nat} (h : Core s (C1 ++ c :: C2) base e r) (hu : c.used = false)
    {b : Bool} (hc : Coal true C2 b) :
    ∃ s' k C3, mergeNext s c.addr = some s' ∧ Core s' (C1 ++ ⟨c.addr, k, false⟩ :: C3) base e r ∧ U C3 = U C2 ∧ (∃ b, Coal false C3 b) ∧
      ∀ x, Clear (C1 ++ c :: C2) x → s'.mem x = s.mem x := by
  obtain ⟨k1, k2, k3, k4⟩ := not_mem_around h.lay
  have hn : next c.addr s.block = (C2.map (·.addr)).head? := by
    rw [h.blk]
    have := next_split c.addr (C1.map (·.addr)) (C2.map (·.addr)) k1
    simpa using this
  have hsame : Core s (C1 ++ ⟨c.addr, c.size, false⟩ :: C2) base e r := by rw [← hu]; exact h
  cases C2 with
  | nil =>
    refine ⟨s, c.size, [], ?_, hsame, rfl, ⟨false, rfl⟩, fun _ _ => rfl⟩
    unfold mergeNext; rw [hn]; rfl
  | cons d D =>
    have hd : used (s.usize d.addr) = d.used := by rw [h.us d (by simp), used_word]
    by_cases hud : d.used = true
    · refine ⟨s, c.size, d :: D, ?_, hsame, rfl, ⟨b, Or.inr hud, hc.2⟩, fun _ _ => rfl⟩
      unfold mergeNext; rw [hn]
      show (if used (s.usize d.addr) then some s else _) = _
      rw [hd, if_pos hud]
    · rw [Bool.not_eq_true] at hud
      obtain ⟨s', e1, e2, e3⟩ := join_ok h hud hu
      refine ⟨s', _, D, ?_, e2, (U_free d D hud).symm, ⟨b, by rw [← hud]; exact hc.2⟩, e3⟩
      unfold mergeNext; rw [hn]
      show (if used (s.usize d.addr) then some s else _) = _
      rw [hd, hud, if_neg (by decide)]
      exact e1

theorem mergePrev_ok {s : Pool} {C1 C2 : List Chunk} {c : Chunk} {base e r : Nat} (h : Core s (C1 ++ c :: C2) base e r) (hu : c.used = false)
    {b b' : Bool} (hc : Coal true C1 b) (hc2 : Coal false C2 b') :
    ∃ s' C, mergePrev s c.addr = some s' ∧ Good s' C base e r ∧ U C = U (C1 ++ C2) ∧
      ∀ x, Clear (C1 ++ c :: C2) x → s'.mem x = s.mem x := by
  obtain ⟨k1, k2, k3, k4⟩ := not_mem_around h.lay
  have hn : prev c.addr s.block = (C1.map (·.addr)).getLast? := by
    rw [h.blk]
    have := prev_split c.addr (C1.map (·.addr)) (C2.map (·.addr)) k1 k2
    simpa using this
  have hU : U (C1 ++ c :: C2) = U (C1 ++ C2) := by rw [U_append, U_free _ _ hu, U_append]
  rcases List.eq_nil_or_concat C1 with rfl | ⟨D, d, rfl⟩
  · refine ⟨s, _, ?_, ⟨h, b', Or.inl rfl, by rw [hu]; exact hc2⟩, hU, fun _ _ => rfl⟩
    unfold mergePrev; rw [hn]; rfl
  · simp only [List.concat_eq_append] at *
    have hn' : prev c.addr s.block = some d.addr := by rw [hn]; simp
    have hd : used (s.usize d.addr) = d.used := by rw [h.us d (by simp), used_word]
    obtain ⟨m, c1, c2, c3⟩ := coal_append.1 hc
    have c3 : d.used = b := c3
    by_cases hud : d.used = true
    · refine ⟨s, _, ?_, ⟨h, b', ?_⟩, hU, fun _ _ => rfl⟩
      · unfold mergePrev; rw [hn']
        show (if used (s.usize d.addr) then some s else _) = _
        rw [hd, if_pos hud]
      · exact coal_append.2 ⟨b, hc, Or.inl (by rw [← c3]; exact hud), by rw [hu]; exact hc2⟩
    · rw [Bool.not_eq_true] at hud
      have h' : Core s (D ++ d :: c :: C2) base e r := by simpa using h
      obtain ⟨s', e1, e2, e3⟩ := join_ok h' hu hud
      refine ⟨s', _, ?_, ⟨e2, b', ?_⟩, ?_, ?_⟩
      · unfold mergePrev; rw [hn']
        show (if used (s.usize d.addr) then some s else _) = _
        rw [hd, hud, if_neg (by decide)]
        exact e1
      · refine coal_append.2 ⟨m, c1, ?_, hc2⟩
        rcases c2 with c2 | c2
        · exact Or.inl c2
        · rw [hud] at c2; cases c2
      · simp only [U_append]
        rw [U_free _ _ rfl, U_free d [] hud]
        simp [U]
      · intro x hx
        exact e3 x (by simpa using hx)

theorem free_ok {s : Pool} {C1 C2 : List Chunk} {c : Chunk} {base e r : Nat} (h : Good s (C1 ++ c :: C2) base e r) (hu : c.used = true) :
    ∃ s' C, free s (c.addr + hdr) = some s' ∧ Good s' C base e r ∧ U C = U (C1 ++ C2) ∧
      ∀ x, Held (C1 ++ C2) x → s'.mem x = s.mem x := by
  obtain ⟨hcore, b, hco⟩ := h
  obtain ⟨m1, q1, q2, q3⟩ := coal_append.1 hco
  obtain ⟨b2, q4⟩ := coal_true q3
  obtain ⟨m, e1, e2⟩ := free_eq s c.addr
  have g1 := mark_ok hcore hu m
  obtain ⟨s2, k, C3, f1, f2, f3, ⟨b3, f4⟩, f5⟩ := mergeNext_ok g1 rfl q4
  obtain ⟨s3, C, g2, g3, g4, g5⟩ := mergePrev_ok f2 rfl q1 f4
  refine ⟨s3, C, ?_, g3, ?_, ?_⟩
  · rw [e1, f1, Option.bind_some, g2]
  · rw [g4, U_append, f3, U_append]
  · intro x hx
    obtain ⟨d, d1, d2, d3, d4⟩ := hx
    have hx : Held (C1 ++ c :: C2) x := ⟨d, by rcases List.mem_append.1 d1 with d1 | d1 <;> simp [d1], d2, d3, d4⟩
    have hcl := (held_clear hcore.lay hx).1
    obtain ⟨r1, r2⟩ := hcore.clear hcl
    have hx1 : Held (C1 ++ ⟨c.addr, c.size, false⟩ :: C2) x := ⟨d, by rcases List.mem_append.1 d1 with d1 | d1 <;> simp [d1], d2, d3, d4⟩
    have hU : U (C1 ++ ⟨c.addr, k, false⟩ :: C3) = U (C1 ++ C2) := by rw [U_append, U_free _ _ rfl, f3, U_append]
    have hdU : d ∈ U (C1 ++ ⟨c.addr, k, false⟩ :: C3) := by rw [hU]; exact List.mem_filter.2 ⟨d1, d2⟩
    have hx2 : Held (C1 ++ ⟨c.addr, k, false⟩ :: C3) x := ⟨d, (List.mem_filter.1 hdU).1, d2, d3, d4⟩
    rw [g5 x (held_clear f2.lay hx2).1, f5 x (held_clear g1.lay hx1).1]
    exact e2 x r2 (hcl c (by simp))

theorem align_ok {n : Nat} (h : n + 31 < W) : n ≤ align n ∧ align n % 32 = 0 := by
  unfold align
  rw [Nat.mod_eq_of_lt h]
  omega

theorem align_align {n : Nat} (h : n + 31 < W) : align (align n) = align n := by
  obtain ⟨h1, h2⟩ := align_ok h
  have : W % 32 = 0 := by decide
  have h3 : align n < n + 32 := by
    unfold align
    rw [Nat.mod_eq_of_lt h]
    omega
  have h4 : align n % 32 = 0 := h2
  have h5 : align n + 31 < W := by omega
  generalize align n = a at *
  unfold align
  rw [Nat.mod_eq_of_lt h5]
  omega

theorem grant_eq {s : Pool} {a : Nat} (hf : a ∈ s.free) :
    ∃ m, s.grant a = some (⟨s.block, s.free.erase a, s.avail, fun x => if x = a then word (size (s.usize a)) true else s.usize x, m⟩, a + hdr) ∧
      ∀ x, (∀ c ∈ s.free, ¬ (c ≤ x ∧ x < c + hdr)) → m x = s.mem x := by
  unfold Pool.grant Pool.delFree
  have hf' : a ∈ (s.setUsed a true).free := hf
  rw [if_pos hf']
  refine ⟨_, rfl, fun x h1 => ?_⟩
  refine (touch_mem h1).trans (touch_mem ?_)
  intro c hc
  rw [List.mem_singleton] at hc
  subst hc
  exact h1 c hf

theorem split_eq {s : Pool} {a f k : Nat} (hb : a ∈ s.block) :
    ∃ m, s.split a f k = some ⟨after a f s.block, f :: s.free, (s.avail + k) % W, fun x => if x = f then word k false else s.usize x, m⟩ ∧
      ∀ x, (∀ c ∈ s.block, ¬ (c ≤ x ∧ x < c + hdr)) → (∀ c ∈ s.free, ¬ (c ≤ x ∧ x < c + hdr)) → ¬ (f ≤ x ∧ x < f + hdr) → m x = s.mem x := by
  unfold Pool.split Pool.addBlock
  have hb' : a ∈ ({ s.put f (word k false) with avail := (s.avail + k) % W } : Pool).block := hb
  rw [if_pos hb']
  refine ⟨_, rfl, fun x h1 h2 h3 => ?_⟩
  refine (touch_mem ?_).trans ((touch_mem ?_).trans (touch_mem (by simpa using h3)))
  · intro c hc
    rcases List.mem_cons.1 hc with rfl | hc
    · exact h3
    · exact h2 c hc
  · intro c hc
    rcases List.mem_cons.1 hc with rfl | hc
    · exact h3
    · exact h1 c hc

theorem alloc_ok {find : Find} (hfit : Fits find) {s : Pool} {C : List Chunk} {base e r n : Nat} (h : Good s C base e r) (hn : n + 31 < W) :
    (alloc find s n = some (s, 0) ∧ (align n ≤ s.avail → find s (align n) = none)) ∨
    ∃ s' c C1 C2 k D, find s (align n) = some c.addr ∧ C = C1 ++ c :: C2 ∧ c.used = false ∧ alloc find s n = some (s', c.addr + hdr) ∧
      Good s' (C1 ++ ⟨c.addr, k, true⟩ :: (D ++ C2)) base e r ∧
      U D = [] ∧ align n ≤ k ∧ k ≤ c.size ∧ ∀ x, Held C x → s'.mem x = s.mem x := by
  obtain ⟨hal, h32⟩ := align_ok hn
  by_cases hav : align n > s.avail
  · left
    refine ⟨?_, fun h => absurd h (by omega)⟩
    unfold alloc
    exact if_pos hav
  cases hf : find s (align n) with
  | none =>
    left
    refine ⟨?_, fun _ => rfl⟩
    unfold alloc
    dsimp only
    rw [if_neg hav, hf]
  | some a =>
    right
    obtain ⟨ha, hsz⟩ := hfit _ _ _ hf
    obtain ⟨hcore, b, hco⟩ := h
    obtain ⟨c, hc, rfl, hu⟩ := (hcore.f a).1 ha
    obtain ⟨C1, C2, rfl⟩ := List.append_of_mem hc
    obtain ⟨f1, f2, f3, f4, f5, f6, f7, f8, f9, f10, f11⟩ := hcore.facts
    have hav' := f10 hu
    have hsmall := hcore.small
    obtain ⟨m1, q1, q2, q3⟩ := coal_append.1 hco
    rw [f1] at hsz
    have hsub : sub c.size (align n) = c.size - align n := sub_ok hsz (by omega)
    generalize hN : align n = N at *
    by_cases hb : c.size - N < hdr + 32
    · obtain ⟨m, e1, e2⟩ := grant_eq (s := { s with avail := sub s.avail c.size }) (a := c.addr) ha
      refine ⟨_, c, C1, C2, c.size, [], rfl, rfl, hu, ?_, ⟨take_ok hcore hu m, ?_⟩, rfl, by omega, Nat.le_refl _, ?_⟩
      · unfold alloc
        dsimp only
        rw [hN, if_neg hav, hf]
        dsimp only
        rw [f1, hsub, if_pos hb, e1]
        dsimp only
        rw [f1]
      · obtain ⟨b2, q4⟩ := coal_true q3
        exact ⟨b2, coal_append.2 ⟨m1, q1, Or.inr rfl, q4⟩⟩
      · intro x hx
        obtain ⟨r1, r2⟩ := hcore.clear (held_clear hcore.lay hx).1
        exact e2 x r2
    · obtain ⟨m2, e1, e2⟩ := split_eq (s := { s with avail := sub s.avail c.size }) (a := c.addr) (f := c.addr + hdr + N) (k := c.size - N - hdr) f7
      obtain ⟨m, e3, e4⟩ := grant_eq (s := Pool.setSize ⟨after c.addr (c.addr + hdr + N) s.block, (c.addr + hdr + N) :: s.free, (sub s.avail c.size + (c.size - N - hdr)) % W,
        fun x => if x = c.addr + hdr + N then word (c.size - N - hdr) false else s.usize x, m2⟩ c.addr N) (a := c.addr) (List.mem_cons_of_mem _ ha)
      refine ⟨_, c, C1, C2, N, [⟨c.addr + hdr + N, c.size - N - hdr, false⟩], rfl, rfl, hu, ?_,
        ⟨cut_ok hcore hu m (n := N) (k := c.size - N - hdr) (by omega) h32, ?_⟩, rfl, by omega, by omega, ?_⟩
      · unfold alloc
        dsimp only
        rw [hN, if_neg hav, hf]
        dsimp only
        rw [f1, hsub, if_neg hb, e1, Option.bind_some, e3]
        congr 2
        simp only [Pool.setSize, Pool.put, Pool.touch, if_true]
        rw [size_word _ _ (by omega)]
        congr 1
        funext x
        split <;> rfl
      · obtain ⟨b2, q4⟩ := coal_true q3
        exact ⟨b, coal_append.2 ⟨m1, q1, Or.inr rfl, Or.inl rfl, by rw [← hu]; exact q3⟩⟩
      · intro x hx
        obtain ⟨r0, r0'⟩ := held_clear hcore.lay hx
        obtain ⟨r1, r2⟩ := hcore.clear r0
        have r3 := r0' c (by simp) hu
        have r4 : ¬ (c.addr + hdr + N ≤ x ∧ x < c.addr + hdr + N + hdr) := by omega
        refine (e4 x ?_).trans ((touch_mem ?_).trans (e2 x r1 r2 r4))
        · intro d hd
          rcases List.mem_cons.1 hd with rfl | hd
          · exact r4
          · exact r2 d hd
        · simpa using r0 c (by simp)

/-- A chunk in use swallows the whole next chunk. -/
theorem grow_ok {s : Pool} {C1 C2 : List Chunk} {c d : Chunk} {base e r : Nat} (h : Core s (C1 ++ c :: d :: C2) base e r) (hu : c.used = true)
    (hd : d.used = false) (m : Nat → Option (BitVec 8)) :
    Core ⟨s.block.erase d.addr, s.free.erase d.addr, sub s.avail d.size,
      fun x => if x = c.addr then word (c.size + (hdr + d.size)) true else s.usize x, m⟩
      (C1 ++ ⟨c.addr, c.size + (hdr + d.size), true⟩ :: C2) base e r := by
  have h2 : Core s ((C1 ++ [c]) ++ d :: C2) base e r := by simpa using h
  obtain ⟨f1, f2, f3, f4, f5, f6, f7, f8, f9, f10, f11⟩ := h.facts
  obtain ⟨g1, g2, g3, g4, g5, g6, g7, g8, g9, g10, g11⟩ := h2.facts
  obtain ⟨k1, k2, k3, k4⟩ := not_mem_around h.lay
  obtain ⟨n1, n2, n3, n4⟩ := not_mem_around h2.lay
  have h' : Core s (C1 ++ [c, d] ++ C2) base e r := by simpa using h
  rw [show C1 ++ (⟨c.addr, c.size + (hdr + d.size), true⟩ : Chunk) :: C2 = C1 ++ [⟨c.addr, c.size + (hdr + d.size), true⟩] ++ C2 by simp]
  have hav := g10 hd
  have hdf := g8 hd
  refine h'.replace (fun p q hl => ?_) ?_ ?_ ?_ ?_ ?_ (h.fnd.erase _) ?_ ?_
  · simp only [Lay] at hl ⊢
    omega
  · show s.block.erase d.addr = _
    rw [h.blk]
    have := erase_split d.addr ((C1 ++ [c]).map (·.addr)) (C2.map (·.addr)) n1
    simpa using this
  · intro x hx
    refine if_neg fun e => ?_
    rcases List.mem_append.1 hx with hx | hx
    · exact k3 x hx e
    · exact k4 x (by simp [hx]) e
  · intro x hx
    simp only [List.mem_singleton] at hx
    subst hx
    exact if_pos rfl
  · intro x hx
    simp only [List.mem_singleton] at hx
    subst hx
    dsimp only; omega
  · intro x hx
    simp only [List.mem_singleton] at hx
    subst hx
    exact h.al c (by simp)
  · intro x
    show x ∈ s.free.erase d.addr ↔ _
    rw [h.fnd.mem_erase_iff]
    simp only [List.mem_cons, List.not_mem_nil, or_false, forall_eq_or_imp, forall_eq, exists_eq_left, Bool.true_eq_false, and_false]
    constructor
    · rintro ⟨a1, a2⟩
      exact ⟨a2, fun e => f9 hu (e ▸ a2), fun e => a1 e.symm⟩
    · rintro ⟨a1, a2, a3⟩
      exact ⟨fun e => a3 e.symm, a1⟩
  · show sub s.avail d.size = _
    rw [sub_ok hav g4]
    simp [avl, hu, hd]

/-- A chunk in use swallows the beginning of the next chunk. -/
theorem growCut_ok {s : Pool} {C1 C2 : List Chunk} {c d : Chunk} {base e r : Nat} (h : Core s (C1 ++ c :: d :: C2) base e r) (hu : c.used = true)
    (hd : d.used = false) (m : Nat → Option (BitVec 8)) {n k : Nat} (hn : c.size + d.size = n + k) (hk : k ≤ d.size) (ha : n % 32 = 0) :
    Core ⟨after c.addr (c.addr + hdr + n) (s.block.erase d.addr), (c.addr + hdr + n) :: s.free.erase d.addr, (sub s.avail d.size + k) % W,
      fun x => if x = c.addr then word n true else if x = c.addr + hdr + n then word k false else s.usize x, m⟩
      (C1 ++ ⟨c.addr, n, true⟩ :: ⟨c.addr + hdr + n, k, false⟩ :: C2) base e r := by
  have h2 : Core s ((C1 ++ [c]) ++ d :: C2) base e r := by simpa using h
  obtain ⟨f1, f2, f3, f4, f5, f6, f7, f8, f9, f10, f11⟩ := h.facts
  obtain ⟨g1, g2, g3, g4, g5, g6, g7, g8, g9, g10, g11⟩ := h2.facts
  obtain ⟨k1, k2, k3, k4⟩ := not_mem_around h.lay
  obtain ⟨n1, n2, n3, n4⟩ := not_mem_around h2.lay
  obtain ⟨l1, l2, -, -⟩ := lay_split h.lay
  obtain ⟨l3, l4, -, -⟩ := lay_split h2.lay
  have hcd : d.addr = c.addr + hdr + c.size := by
    obtain ⟨p, -, p1, p2, -⟩ := lay_append.1 h.lay
    omega
  have h' : Core s (C1 ++ [c, d] ++ C2) base e r := by simpa using h
  rw [show C1 ++ (⟨c.addr, n, true⟩ : Chunk) :: ⟨c.addr + hdr + n, k, false⟩ :: C2 = C1 ++ [⟨c.addr, n, true⟩, ⟨c.addr + hdr + n, k, false⟩] ++ C2 by simp]
  have hav := g10 hd
  have hdf := g8 hd
  have hnf : c.addr + hdr + n ∉ s.free.erase d.addr := by
    intro hh
    rw [h.fnd.mem_erase_iff] at hh
    obtain ⟨x, d1, d2, -⟩ := (h.f _).1 hh.2
    rcases lay_apart h2.lay (show d ∈ _ by simp) (by simpa using d1) with e | e | e
    · subst e; exact hh.1 d2.symm
    · omega
    · omega
  refine h'.replace (fun p q hl => ?_) ?_ ?_ ?_ ?_ ?_ (List.nodup_cons.2 ⟨hnf, h.fnd.erase _⟩) ?_ ?_
  · simp only [Lay] at hl ⊢
    omega
  · show after _ _ (s.block.erase d.addr) = _
    rw [h.blk]
    have e1 := erase_split d.addr ((C1 ++ [c]).map (·.addr)) (C2.map (·.addr)) n1
    have e2 := after_split c.addr (c.addr + hdr + n) (C1.map (·.addr)) (C2.map (·.addr)) k1
    rw [show (C1 ++ c :: d :: C2).map (·.addr) = (C1 ++ [c]).map (·.addr) ++ d.addr :: C2.map (·.addr) by simp, e1]
    simpa using e2
  · intro x hx
    dsimp only
    rcases List.mem_append.1 hx with hx | hx
    · have := l1 x hx
      rw [if_neg (by omega), if_neg (by omega)]
    · have := l4 x hx
      rw [if_neg (by omega), if_neg (by omega)]
  · intro x hx
    simp only [List.mem_cons, List.not_mem_nil, or_false] at hx
    rcases hx with hx | hx
    · subst hx
      exact if_pos rfl
    · subst hx
      dsimp only
      rw [if_neg (by omega), if_pos rfl]
  · intro x hx
    simp only [List.mem_cons, List.not_mem_nil, or_false] at hx
    rcases hx with hx | hx
    · subst hx; dsimp only; omega
    · subst hx; dsimp only; omega
  · have := h.al c (by simp)
    intro x hx
    simp only [List.mem_cons, List.not_mem_nil, or_false] at hx
    rcases hx with hx | hx
    · subst hx; exact this
    · subst hx; dsimp only; omega
  · intro x
    show x ∈ _ :: s.free.erase d.addr ↔ _
    rw [List.mem_cons, h.fnd.mem_erase_iff]
    simp only [List.mem_cons, List.not_mem_nil, or_false, forall_eq_or_imp, forall_eq, exists_eq_or_imp, exists_eq_left, Bool.true_eq_false, and_false, false_or, and_true]
    constructor
    · rintro (a1 | ⟨a1, a2⟩)
      · exact Or.inr a1.symm
      · exact Or.inl ⟨a2, fun e => f9 hu (e ▸ a2), fun e => a1 e.symm⟩
    · rintro (⟨a1, a2, a3⟩ | a1)
      · exact Or.inr ⟨fun e => a3 e.symm, a1⟩
      · exact Or.inl a1.symm
  · show (sub s.avail d.size + k) % W = _
    rw [sub_ok hav g4, Nat.mod_eq_of_lt (by omega)]
    simp [avl, hu, hd]

theorem del_eq {s : Pool} {b : Nat} {α : Type} (g : Pool → Option α) (hf : b ∈ s.free) (hb : b ∈ s.block) :
    ∃ m, ((s.delFree b).bind fun s => (s.delBlock b).bind g) = g ⟨s.block.erase b, s.free.erase b, s.avail, s.usize, m⟩ ∧
      ∀ x, (∀ c ∈ s.block, ¬ (c ≤ x ∧ x < c + hdr)) → (∀ c ∈ s.free, ¬ (c ≤ x ∧ x < c + hdr)) → m x = s.mem x := by
  have hb' : b ∈ (s.touch s.free).block := hb
  unfold Pool.delFree
  rw [if_pos hf, Option.bind_some]
  unfold Pool.delBlock
  dsimp only
  rw [if_pos hb']
  refine ⟨_, rfl, fun x h1 h2 => ?_⟩
  refine (touch_mem h1).trans ?_
  exact touch_mem h2

theorem expand_ok {s : Pool} {C1 C2 : List Chunk} {c d : Chunk} {base e r : Nat} (h : Good s (C1 ++ c :: d :: C2) base e r) (hu : c.used = true)
    (hd : d.used = false) {n : Nat} (ha : n % 32 = 0) (hn : c.size < n) (hfit : n ≤ c.size + (hdr + d.size)) (hW : n < W) :
    ∃ s' k D, expand s (c.addr + hdr) d.addr c.size n = some (s', c.addr + hdr) ∧
      Good s' (C1 ++ ⟨c.addr, k, true⟩ :: (D ++ C2)) base e r ∧ U D = [] ∧ n ≤ k ∧
      ∀ x, Held (C1 ++ c :: d :: C2) x → s'.mem x = s.mem x := by
  obtain ⟨hcore, b, hco⟩ := h
  have h2 : Core s ((C1 ++ [c]) ++ d :: C2) base e r := by simpa using hcore
  obtain ⟨f1, f2, f3, f4, f5, f6, f7, f8, f9, f10, f11⟩ := hcore.facts
  obtain ⟨g1, g2, g3, g4, g5, g6, g7, g8, g9, g10, g11⟩ := h2.facts
  have hsmall := hcore.small
  have hcd : d.addr = c.addr + hdr + c.size := by
    obtain ⟨p, -, p1, p2, -⟩ := lay_append.1 hcore.lay
    omega
  obtain ⟨m1, q1, q2, q3, q4⟩ := coal_append.1 hco
  have s1 : sub n c.size = n - c.size := sub_ok (by omega) hW
  have s2 : sub (hdr + d.size) (n - c.size) = hdr + d.size - (n - c.size) := sub_ok (by omega) (by omega)
  have hblk := hcore.blk
  by_cases hb : hdr + d.size - (n - c.size) < hdr + 32
  · obtain ⟨m, e1, e2⟩ := del_eq (s := { s with avail := sub s.avail d.size }) (b := d.addr)
      (fun s => some (s.setSize c.addr ((c.size + (hdr + d.size)) % W), c.addr + hdr)) (g8 hd) g7
    refine ⟨⟨s.block.erase d.addr, s.free.erase d.addr, sub s.avail d.size,
      fun x => if x = c.addr then word (c.size + (hdr + d.size)) true else s.usize x, (Pool.setSize ⟨s.block.erase d.addr, s.free.erase d.addr, sub s.avail d.size, s.usize, m⟩ c.addr 0).mem⟩, _, [], ?_, ⟨grow_ok hcore hu hd _, ?_⟩, rfl, by omega, ?_⟩
    · unfold expand
      dsimp only
      rw [g1, s1, s2, Nat.add_sub_cancel]
      simp only [if_pos hb]
      rw [e1, Nat.mod_eq_of_lt (by omega)]
      simp only [Pool.setSize, Pool.put, Pool.touch]
      rw [f2, hu]
    · obtain ⟨b2, q5⟩ := coal_true q4
      exact ⟨b2, coal_append.2 ⟨m1, q1, Or.inr rfl, q5⟩⟩
    · intro x hx
      obtain ⟨r0, r0'⟩ := held_clear hcore.lay hx
      obtain ⟨r1, r2⟩ := hcore.clear r0
      exact (touch_mem (by simpa using r0 c (by simp))).trans (e2 x r1 r2)
  · have hf : d.addr + (n - c.size) = c.addr + hdr + n := by omega
    have hk : hdr + d.size - (n - c.size) - hdr = c.size + d.size - n := by omega
    obtain ⟨m, e1, e2⟩ := del_eq (s := { s with avail := sub s.avail d.size }) (b := d.addr)
      (fun s => (s.split c.addr (c.addr + hdr + n) (c.size + d.size - n)).map fun s => (s.setSize c.addr n, c.addr + hdr)) (g8 hd) g7
    obtain ⟨m2, e3, e4⟩ := split_eq (s := ⟨s.block.erase d.addr, s.free.erase d.addr, sub s.avail d.size, s.usize, m⟩) (a := c.addr)
      (f := c.addr + hdr + n) (k := c.size + d.size - n) ((List.mem_erase_of_ne (by omega)).2 f7)
    refine ⟨⟨after c.addr (c.addr + hdr + n) (s.block.erase d.addr), (c.addr + hdr + n) :: s.free.erase d.addr, (sub s.avail d.size + (c.size + d.size - n)) % W,
      fun x => if x = c.addr then word n true else if x = c.addr + hdr + n then word (c.size + d.size - n) false else s.usize x, (Pool.setSize ⟨s.block.erase d.addr, s.free.erase d.addr, sub s.avail d.size, s.usize, m2⟩ c.addr 0).mem⟩, n,
      [⟨c.addr + hdr + n, c.size + d.size - n, false⟩], ?_, ⟨growCut_ok hcore hu hd _ (by omega) (by omega) ha, ?_⟩, rfl, by omega, ?_⟩
    · unfold expand
      dsimp only
      rw [g1, s1, s2, Nat.add_sub_cancel]
      simp only [if_neg hb, hf, hk]
      rw [e1]
      simp only [e3, Option.map_some]
      simp only [Pool.setSize, Pool.put, Pool.touch]
      rw [if_neg (by omega), f2, hu]
    · exact ⟨b, coal_append.2 ⟨m1, q1, Or.inr rfl, Or.inl rfl, by rw [← hd]; exact q4⟩⟩
    · intro x hx
      obtain ⟨r0, r0'⟩ := held_clear hcore.lay hx
      obtain ⟨r1, r2⟩ := hcore.clear r0
      have r3 := r0' d (by simp) hd
      have r4 : ¬ (c.addr + hdr + n ≤ x ∧ x < c.addr + hdr + n + hdr) := by omega
      refine (touch_mem (by simpa using r0 c (by simp))).trans ((e4 x ?_ ?_ r4).trans (e2 x r1 r2))
      · intro y hy; exact r1 y (List.mem_of_mem_erase hy)
      · intro y hy; exact r2 y (List.mem_of_mem_erase hy)

theorem Good.mem {s : Pool} {C : List Chunk} {base e r : Nat} (h : Good s C base e r) (m : Nat → Option (BitVec 8)) :
    Good { s with mem := m } C base e r :=
  ⟨⟨h.1.lay, h.1.small, h.1.blk, h.1.us, h.1.even, h.1.al, h.1.fnd, h.1.f, h.1.av⟩, h.2⟩

theorem held_perm {C D : List Chunk} {x : Nat} (h : ∀ c ∈ U C, c ∈ U D) (hx : Held C x) : Held D x := by
  obtain ⟨c, h1, h2, h3⟩ := hx
  have := h c (List.mem_filter.2 ⟨h1, h2⟩)
  exact ⟨c, (List.mem_filter.1 this).1, h2, h3⟩

theorem U_perm_mid (A B : List Chunk) (c : Chunk) (h : c.used = true) : (U (A ++ c :: B)).Perm (c :: U (A ++ B)) := by
  rw [U_append, U_used _ _ h, U_append]
  exact List.perm_middle

theorem move_ok {find : Find} (hfit : Fits find) {s : Pool} {C1 C2 : List Chunk} {c : Chunk} {base e r n : Nat} (h : Good s (C1 ++ c :: C2) base e r)
    (hu : c.used = true) (hn : n + 31 < W) (hlt : c.size ≤ n) :
    move find s (c.addr + hdr) c.size n = some (s, 0) ∨
    ∃ s' C d, move find s (c.addr + hdr) c.size n = some (s', d.addr + hdr) ∧ Good s' C base e r ∧ d.used = true ∧ align n ≤ d.size ∧
      (U C).Perm (d :: U (C1 ++ C2)) ∧ (∀ x, Held (C1 ++ C2) x → s'.mem x = s.mem x) ∧
      ∀ i, i < c.size → s'.mem (d.addr + hdr + i) = s.mem (c.addr + hdr + i) := by
  rcases alloc_ok hfit h hn with ⟨h1, -⟩ | ⟨s1, d, A, B, k, D, -, hC, hdu, ha, hG, hD, hk1, hk2, hm⟩
  · left
    unfold move
    rw [h1]
    rfl
  · right
    have hal := (align_ok hn).1
    have hcd : c ∈ A ++ d :: B := by rw [← hC]; simp
    have hlay0 := h.1.lay
    rw [hC] at hlay0
    have hne : c ≠ d := by rintro rfl; rw [hu] at hdu; cases hdu
    have hcC : c ∈ A ++ ⟨d.addr, k, true⟩ :: (D ++ B) := by
      rcases List.mem_append.1 hcd with h | h
      · simp [h]
      · rcases List.mem_cons.1 h with h | h
        · exact absurd h hne
        · simp [h]
    have hap : c.addr + hdr + c.size ≤ d.addr ∨ d.addr + hdr + d.size ≤ c.addr := by
      rcases lay_apart hlay0 hcd (show d ∈ A ++ d :: B by simp) with h | h
      · exact absurd h hne
      · exact h
    have hcopy : s1.copy (d.addr + hdr) (c.addr + hdr) c.size =
        some { s1 with mem := fun x => if d.addr + hdr ≤ x ∧ x < d.addr + hdr + c.size then s1.mem (x - (d.addr + hdr) + (c.addr + hdr)) else s1.mem x } := by
      unfold Pool.copy
      rw [if_pos (by omega)]
    obtain ⟨E1, E2, hE⟩ := List.append_of_mem hcC
    have hG2 := hG.mem (fun x => if d.addr + hdr ≤ x ∧ x < d.addr + hdr + c.size then s1.mem (x - (d.addr + hdr) + (c.addr + hdr)) else s1.mem x)
    rw [hE] at hG2
    obtain ⟨s3, C', k1, k2, k3, k4⟩ := free_ok hG2 hu
    have hperm : (U (E1 ++ E2)).Perm (⟨d.addr, k, true⟩ :: U (C1 ++ C2)) := by
      have p1 : (U (A ++ ⟨d.addr, k, true⟩ :: (D ++ B))).Perm (⟨d.addr, k, true⟩ :: U (A ++ (D ++ B))) := U_perm_mid _ _ _ rfl
      have p2 : U (A ++ (D ++ B)) = U (C1 ++ c :: C2) := by
        rw [hC, U_append, U_append, hD, U_append, U_free _ _ hdu]; rfl
      have p3 : (U (C1 ++ c :: C2)).Perm (c :: U (C1 ++ C2)) := U_perm_mid _ _ _ hu
      have p4 : (U (E1 ++ c :: E2)).Perm (c :: U (E1 ++ E2)) := U_perm_mid _ _ _ hu
      rw [hE, p2] at p1
      have p5 := (p4.symm.trans p1).trans (p3.cons _)
      exact List.Perm.cons_inv (p5.trans (List.Perm.swap _ _ _))
    refine ⟨s3, C', ⟨d.addr, k, true⟩, ?_, k2, rfl, hk1, k3 ▸ hperm, ?_, ?_⟩
    · unfold move
      rw [ha, Option.bind_some]
      dsimp only
      rw [if_neg (by omega), hcopy, Option.bind_some, k1]
      rfl
    · intro x hx
      rw [k4 x (held_perm (fun y hy => hperm.mem_iff.2 (List.mem_cons_of_mem _ hy)) hx)]
      have hx' : Held (C1 ++ c :: C2) x := held_perm (fun y hy => (U_perm_mid _ _ _ hu).mem_iff.2 (List.mem_cons_of_mem _ hy)) hx
      have hx2 := hx'
      rw [hC] at hx'
      have := (held_clear hlay0 hx').2 d (by simp) hdu
      show (if _ then _ else _) = _
      rw [if_neg (by omega)]
      exact hm x hx2
    · intro i hi
      have hx : Held (E1 ++ E2) (d.addr + hdr + i) := by
        have : (⟨d.addr, k, true⟩ : Chunk) ∈ U (E1 ++ E2) := hperm.mem_iff.2 List.mem_cons_self
        exact ⟨_, (List.mem_filter.1 this).1, rfl, by show d.addr + hdr ≤ _; omega, by show _ < d.addr + hdr + k; omega⟩
      dsimp only
      rw [k4 _ hx]
      show (if _ then _ else _) = _
      rw [if_pos (by omega)]
      rw [show d.addr + hdr + i - (d.addr + hdr) + (c.addr + hdr) = c.addr + hdr + i by omega]
      exact hm _ ⟨c, by simp, hu, by omega, by omega⟩

theorem realloc_ok {find : Find} (hfit : Fits find) {s : Pool} {C1 C2 : List Chunk} {c : Chunk} {base e r n : Nat} (h : Good s (C1 ++ c :: C2) base e r)
    (hu : c.used = true) (hn : n + 31 < W) :
    (realloc find s (c.addr + hdr) n = some (s, 0) ∧ (align n ≤ s.avail → c.size < align n)) ∨
    ∃ s' C d, realloc find s (c.addr + hdr) n = some (s', d.addr + hdr) ∧ Good s' C base e r ∧ d.used = true ∧ align n ≤ d.size ∧
      (U C).Perm (d :: U (C1 ++ C2)) ∧ (∀ x, Held (C1 ++ C2) x → s'.mem x = s.mem x) ∧
      (∀ i, i < c.size → s'.mem (d.addr + hdr + i) = s.mem (c.addr + hdr + i)) ∧ (align n ≤ c.size → d.addr = c.addr) := by
  obtain ⟨hal, h32⟩ := align_ok hn
  obtain ⟨f1, f2, f3, f4, f5, f6, f7, f8, f9, f10, f11⟩ := h.1.facts
  have hN : align n + 31 < W := by
    unfold align
    rw [Nat.mod_eq_of_lt hn]
    have : W % 32 = 0 := by decide
    omega
  have hN2 : align n < n + 32 := by
    unfold align
    rw [Nat.mod_eq_of_lt hn]
    omega
  by_cases hav : align n > s.avail
  · left
    unfold realloc
    exact ⟨if_pos hav, fun h => absurd h (by omega)⟩
  · by_cases ho : c.size ≥ align n
    · right
      refine ⟨s, _, c, ?_, h, hu, by omega, U_perm_mid _ _ _ hu, fun _ _ => rfl, fun _ _ => rfl, fun _ => rfl⟩
      unfold realloc
      dsimp only
      rw [if_neg hav, Nat.add_sub_cancel, f1, if_pos ho]
    · obtain ⟨k1, k2, k3, k4⟩ := not_mem_around h.1.lay
      have hnx : next c.addr s.block = (C2.map (·.addr)).head? := by
        rw [h.1.blk]
        have := next_split c.addr (C1.map (·.addr)) (C2.map (·.addr)) k1
        simpa using this
      have hmove : realloc find s (c.addr + hdr) n = move find s (c.addr + hdr) c.size (align n) →
          (realloc find s (c.addr + hdr) n = some (s, 0) ∧ (align n ≤ s.avail → c.size < align n)) ∨
          ∃ s' C d, realloc find s (c.addr + hdr) n = some (s', d.addr + hdr) ∧ Good s' C base e r ∧ d.used = true ∧ align n ≤ d.size ∧
            (U C).Perm (d :: U (C1 ++ C2)) ∧ (∀ x, Held (C1 ++ C2) x → s'.mem x = s.mem x) ∧
            (∀ i, i < c.size → s'.mem (d.addr + hdr + i) = s.mem (c.addr + hdr + i)) ∧ (align n ≤ c.size → d.addr = c.addr) := by
        intro hm
        rw [hm]
        rcases move_ok hfit h hu hN (by omega) with h1 | ⟨s', C, d, h1, h2, h3, h4, h5, h6, h7⟩
        · exact Or.inl ⟨h1, fun _ => by omega⟩
        · exact Or.inr ⟨s', C, d, h1, h2, h3, by rw [align_align hn] at h4; omega, h5, h6, h7, fun _ => by omega⟩
      cases hC2 : C2 with
      | nil =>
        subst hC2
        refine hmove ?_
        unfold realloc
        dsimp only
        rw [if_neg hav, Nat.add_sub_cancel, f1, if_neg ho, hnx]
        rfl
      | cons d D =>
        subst hC2
        have hd : used (s.usize d.addr) = d.used := by rw [h.1.us d (by simp), used_word]
        have hd2 : size (s.usize d.addr) = d.size := by rw [h.1.us d (by simp), size_word _ _ (h.1.even d (by simp))]
        have hs1 : sub (align n) c.size = align n - c.size := sub_ok (by omega) (by omega)
        have hnx' : next c.addr s.block = some d.addr := by rw [hnx]; rfl
        by_cases hcond : d.used = true ∨ hdr + d.size < align n - c.size
        · refine hmove ?_
          unfold realloc
          dsimp only
          rw [if_neg hav, Nat.add_sub_cancel, f1, if_neg ho, hnx']
          dsimp only
          rw [hd, hd2, hs1, if_pos hcond]
        · rw [not_or, Bool.not_eq_true] at hcond
          obtain ⟨s', k, E, h1, h2, h3, h4, h5⟩ := expand_ok h hu hcond.1 h32 (by omega) (by omega) (by omega)
          right
          refine ⟨s', _, ⟨c.addr, k, true⟩, ?_, h2, rfl, by dsimp only; omega, ?_, ?_, ?_, fun _ => rfl⟩
          · unfold realloc
            dsimp only
            rw [if_neg hav, Nat.add_sub_cancel, f1, if_neg ho, hnx']
            dsimp only
            rw [hd, hd2, hs1, if_neg (by rw [hcond.1]; simp; omega), h1]
          · refine (U_perm_mid _ _ _ rfl).trans ?_
            rw [U_append, U_append, h3, U_append, U_free _ _ hcond.1]
            exact List.Perm.refl _
          · intro x hx
            exact h5 x (held_perm (fun y hy => (U_perm_mid _ _ _ hu).mem_iff.2 (List.mem_cons_of_mem _ hy)) hx)
          · intro i hi
            dsimp only
            exact h5 _ ⟨c, by simp, hu, by omega, by omega⟩

end Bfdev.Memalloc

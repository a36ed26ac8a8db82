import Verif.Memalloc.Spec
/-! The chunks of the pool. -/
namespace Bfdev.Memalloc

structure Chunk where
  addr : Nat
  size : Nat
  used : Bool

/-- The chunks lie back to back from `p` to `e`. -/
def Lay : Nat → List Chunk → Nat → Prop
  | p, [], e => p = e
  | p, c :: C, e => c.addr = p ∧ Lay (p + hdr + c.size) C e

/-- No two neighbours are free; `b` says that the chunk before is in use, `b'` is that of the last one. -/
def Coal : Bool → List Chunk → Bool → Prop
  | b, [], b' => b = b'
  | b, c :: C, b' => (b = true ∨ c.used = true) ∧ Coal c.used C b'

theorem lay_append {p e : Nat} {C D : List Chunk} : Lay p (C ++ D) e ↔ ∃ m, Lay p C m ∧ Lay m D e := by
  induction C generalizing p with
  | nil => simp [Lay]
  | cons c C ih =>
    simp only [List.cons_append, Lay, ih]
    exact ⟨fun ⟨h1, m, h2, h3⟩ => ⟨m, ⟨h1, h2⟩, h3⟩, fun ⟨m, ⟨h1, h2⟩, h3⟩ => ⟨h1, m, h2, h3⟩⟩

theorem coal_append {b b' : Bool} {C D : List Chunk} : Coal b (C ++ D) b' ↔ ∃ m, Coal b C m ∧ Coal m D b' := by
  induction C generalizing b with
  | nil => simp [Coal]
  | cons c C ih =>
    simp only [List.cons_append, Coal, ih]
    exact ⟨fun ⟨h1, m, h2, h3⟩ => ⟨m, ⟨h1, h2⟩, h3⟩, fun ⟨m, ⟨h1, h2⟩, h3⟩ => ⟨h1, m, h2, h3⟩⟩

theorem coal_true {C : List Chunk} {b b' : Bool} (h : Coal b C b') : ∃ b'', Coal true C b'' := by
  cases C with
  | nil => exact ⟨true, rfl⟩
  | cons c C => exact ⟨b', Or.inl rfl, h.2⟩

theorem lay_bounds {C : List Chunk} : ∀ {p e : Nat}, Lay p C e → p ≤ e ∧ ∀ c ∈ C, p ≤ c.addr ∧ c.addr + hdr + c.size ≤ e := by
  induction C with
  | nil => intro p e h; exact ⟨Nat.le_of_eq h, by simp⟩
  | cons c C ih =>
    intro p e h
    obtain ⟨h1, h2⟩ := ih h.2
    have h3 := h.1
    refine ⟨by omega, fun x hx => ?_⟩
    rcases List.mem_cons.1 hx with rfl | hx
    · exact ⟨by omega, by omega⟩
    · have := h2 x hx; exact ⟨by omega, this.2⟩

/-- Chunks before and behind a chunk. -/
theorem lay_split {p e : Nat} {C D : List Chunk} {c : Chunk} (h : Lay p (C ++ c :: D) e) :
    (∀ x ∈ C, x.addr + hdr + x.size ≤ c.addr) ∧ (∀ x ∈ D, c.addr + hdr + c.size ≤ x.addr) ∧ p ≤ c.addr ∧ c.addr + hdr + c.size ≤ e := by
  obtain ⟨m, h1, h2, h3⟩ := lay_append.1 h
  subst h2
  obtain ⟨a1, a2⟩ := lay_bounds h1
  obtain ⟨b1, b2⟩ := lay_bounds h3
  exact ⟨fun x hx => (a2 x hx).2, fun x hx => (b2 x hx).1, a1, b1⟩

theorem lay_pairwise {C : List Chunk} : ∀ {p e : Nat}, Lay p C e → C.Pairwise fun x y => x.addr + hdr + x.size ≤ y.addr := by
  induction C with
  | nil => intros; exact List.Pairwise.nil
  | cons c C ih =>
    intro p e h
    refine List.pairwise_cons.2 ⟨fun x hx => ?_, ih h.2⟩
    have := ((lay_bounds h.2).2 x hx).1
    have := h.1
    omega

/-- Sizes of the free chunks. -/
def avl : List Chunk → Nat
  | [] => 0
  | c :: C => (if c.used then 0 else c.size) + avl C

theorem avl_append (C D : List Chunk) : avl (C ++ D) = avl C + avl D := by
  induction C with
  | nil => simp [avl]
  | cons c C ih => simp only [List.cons_append, avl, ih]; omega

theorem avl_le {C : List Chunk} : ∀ {p e : Nat}, Lay p C e → p + avl C + hdr * C.length ≤ e := by
  induction C with
  | nil => intro p e h; rw [h]; simp [avl]
  | cons c C ih =>
    intro p e h
    have := ih h.2
    simp only [avl, List.length_cons, Nat.mul_add]
    split <;> omega

theorem size_word (n : Nat) (b : Bool) (h : n % 2 = 0) : size (word n b) = n := by
  unfold size word
  cases b <;> simp <;> omega

theorem used_word (n : Nat) (b : Bool) : used (word n b) = b := by
  unfold used word
  cases b <;> simp

/-- The pool consists of the chunks `C` from `base` to `e`; `r` bytes are counted as available in addition. -/
structure Core (s : Pool) (C : List Chunk) (base e r : Nat) : Prop where
  lay : Lay base C e
  small : e + r ≤ W
  blk : s.block = C.map (·.addr)
  us : ∀ c ∈ C, s.usize c.addr = word c.size c.used
  even : ∀ c ∈ C, c.size % 2 = 0
  al : ∀ c ∈ C, c.addr % 8 = base % 8
  fnd : s.free.Nodup
  f : ∀ a, a ∈ s.free ↔ ∃ c ∈ C, c.addr = a ∧ c.used = false
  av : s.avail = avl C + r

/-- `x` is not in the header of a chunk. -/
def Clear (C : List Chunk) (x : Nat) : Prop := ∀ c ∈ C, ¬ (c.addr ≤ x ∧ x < c.addr + hdr)

theorem touch_mem {s : Pool} {l : List Nat} {x : Nat} (h : ∀ a ∈ l, ¬ (a ≤ x ∧ x < a + hdr)) : (s.touch l).mem x = s.mem x := by
  unfold Pool.touch
  dsimp only
  rw [if_neg]
  intro hh
  obtain ⟨a, h1, h2⟩ := List.any_eq_true.1 hh
  exact h a h1 (by simpa using h2)

theorem next_split (a : Nat) (l m : List Nat) (h : a ∉ l) : next a (l ++ a :: m) = m.head? := by
  induction l with
  | nil => simp [next]
  | cons x l ih =>
    rw [List.cons_append, next, if_neg (fun e => h (by simp [e]))]
    exact ih (fun hh => h (List.mem_cons_of_mem _ hh))

theorem prev_none (a : Nat) : ∀ (x : Nat) (m : List Nat), a ∉ m → prev a (x :: m) = none := by
  intro x m
  induction m generalizing x with
  | nil => intro _; rfl
  | cons y m ih =>
    intro h
    rw [prev, if_neg (fun e => h (by simp [e]))]
    exact ih y (fun hh => h (List.mem_cons_of_mem _ hh))

theorem prev_split (a : Nat) (l m : List Nat) (h : a ∉ l) (h2 : a ∉ m) : prev a (l ++ a :: m) = l.getLast? := by
  induction l with
  | nil => exact prev_none a a m h2
  | cons x l ih =>
    cases l with
    | nil => simp [prev]
    | cons y l =>
      rw [List.cons_append, List.cons_append, prev, if_neg (fun e => h (by simp [e]))]
      rw [List.getLast?_cons_cons]
      exact ih (fun hh => h (List.mem_cons_of_mem _ hh))

theorem after_split (a n : Nat) (l m : List Nat) (h : a ∉ l) : after a n (l ++ a :: m) = l ++ a :: n :: m := by
  induction l with
  | nil => simp [after]
  | cons x l ih =>
    rw [List.cons_append, after, if_neg (fun e => h (by simp [e])), ih (fun hh => h (List.mem_cons_of_mem _ hh))]
    rfl

theorem erase_split (a : Nat) (l m : List Nat) (h : a ∉ l) : (l ++ a :: m).erase a = l ++ m := by
  rw [List.erase_append_right _ h, List.erase_cons_head]

/-- In the chunks around a chunk no other has its address. -/
theorem not_mem_around {p e : Nat} {C D : List Chunk} {c : Chunk} (h : Lay p (C ++ c :: D) e) :
    c.addr ∉ C.map (·.addr) ∧ c.addr ∉ D.map (·.addr) ∧ (∀ x ∈ C, x.addr ≠ c.addr) ∧ ∀ x ∈ D, x.addr ≠ c.addr := by
  obtain ⟨h1, h2, -, -⟩ := lay_split h
  have a1 : ∀ x ∈ C, x.addr ≠ c.addr := fun x hx e => by have := h1 x hx; omega
  have a2 : ∀ x ∈ D, x.addr ≠ c.addr := fun x hx e => by have := h2 x hx; omega
  refine ⟨fun hh => ?_, fun hh => ?_, a1, a2⟩
  · obtain ⟨x, hx, e⟩ := List.mem_map.1 hh; exact a1 x hx e
  · obtain ⟨x, hx, e⟩ := List.mem_map.1 hh; exact a2 x hx e

theorem Core.split {s : Pool} {C : List Chunk} {base e r : Nat} (h : Core s C base e r) {a : Nat} (ha : a ∈ s.free) :
    ∃ C1 c C2, C = C1 ++ c :: C2 ∧ c.addr = a ∧ c.used = false := by
  obtain ⟨c, h1, h2, h3⟩ := (h.f a).1 ha
  obtain ⟨C1, C2, e⟩ := List.append_of_mem h1
  exact ⟨C1, c, C2, e, h2, h3⟩

/-- A pool whose chunks around `c` are as before, and `c` is replaced by `D`. -/
theorem Core.replace {s s' : Pool} {C1 C2 D D' : List Chunk} {base e r : Nat} (h : Core s (C1 ++ D ++ C2) base e r)
    (hD : ∀ p q, Lay p D q → Lay p D' q) (hb : s'.block = (C1 ++ D' ++ C2).map (·.addr))
    (hu : ∀ c ∈ C1 ++ C2, s'.usize c.addr = s.usize c.addr) (hu' : ∀ c ∈ D', s'.usize c.addr = word c.size c.used)
    (he : ∀ c ∈ D', c.size % 2 = 0) (ha : ∀ c ∈ D', c.addr % 8 = base % 8) (hn : s'.free.Nodup)
    (hf : ∀ a, a ∈ s'.free ↔ (a ∈ s.free ∧ ∀ c ∈ D, c.addr ≠ a) ∨ ∃ c ∈ D', c.addr = a ∧ c.used = false)
    (hav : s'.avail = s.avail - avl D + avl D') : Core s' (C1 ++ D' ++ C2) base e r := by
  have lay := h.lay
  obtain ⟨m, lay1, lay2⟩ := lay_append.1 lay
  obtain ⟨q, lay3, lay4⟩ := lay_append.1 lay1
  have b1 := lay_bounds lay3
  have b2 := lay_bounds lay4
  have b3 := lay_bounds lay2
  refine ⟨lay_append.2 ⟨m, lay_append.2 ⟨q, lay3, hD _ _ lay4⟩, lay2⟩, h.small, hb, ?_, ?_, ?_, hn, ?_, ?_⟩
  · intro c hc
    simp only [List.mem_append] at hc
    rcases hc with (hc | hc) | hc
    · rw [hu c (by simp [hc])]; exact h.us c (by simp [hc])
    · exact hu' c hc
    · rw [hu c (by simp [hc])]; exact h.us c (by simp [hc])
  · intro c hc
    simp only [List.mem_append] at hc
    rcases hc with (hc | hc) | hc
    · exact h.even c (by simp [hc])
    · exact he c hc
    · exact h.even c (by simp [hc])
  · intro c hc
    simp only [List.mem_append] at hc
    rcases hc with (hc | hc) | hc
    · exact h.al c (by simp [hc])
    · exact ha c hc
    · exact h.al c (by simp [hc])
  · intro a
    rw [hf, h.f]
    constructor
    · rintro (⟨⟨c, h1, h2, h3⟩, h4⟩ | ⟨c, h1, h2⟩)
      · refine ⟨c, ?_, h2, h3⟩
        simp only [List.mem_append] at h1 ⊢
        rcases h1 with (h1 | h1) | h1
        · exact Or.inl (Or.inl h1)
        · exact absurd h2 (h4 c h1)
        · exact Or.inr h1
      · exact ⟨c, by simp [h1], h2⟩
    · rintro ⟨c, h1, h2, h3⟩
      simp only [List.mem_append] at h1
      rcases h1 with (h1 | h1) | h1
      · refine Or.inl ⟨⟨c, by simp [h1], h2, h3⟩, fun d hd e => ?_⟩
        have := (b1.2 c h1).2; have := (b2.2 d hd).1; omega
      · exact Or.inr ⟨c, h1, h2, h3⟩
      · refine Or.inl ⟨⟨c, by simp [h1], h2, h3⟩, fun d hd e => ?_⟩
        have := (b3.2 c h1).1; have := (b2.2 d hd).2; omega
  · rw [hav, h.av]
    simp only [avl_append]
    omega

/-- Addresses of the chunks in the lists are clear of `x`. -/
theorem Core.clear {s : Pool} {C : List Chunk} {base e r : Nat} (h : Core s C base e r) {x : Nat} (hx : Clear C x) :
    (∀ a ∈ s.block, ¬ (a ≤ x ∧ x < a + hdr)) ∧ ∀ a ∈ s.free, ¬ (a ≤ x ∧ x < a + hdr) := by
  refine ⟨fun a ha => ?_, fun a ha => ?_⟩
  · rw [h.blk] at ha
    obtain ⟨c, h1, h2⟩ := List.mem_map.1 ha
    rw [← h2]; exact hx c h1
  · obtain ⟨c, h1, h2, -⟩ := (h.f a).1 ha
    rw [← h2]; exact hx c h1

theorem Core.bound {s : Pool} {C : List Chunk} {base e r : Nat} (h : Core s C base e r) : base + s.avail + hdr * C.length ≤ e + r := by
  have := avl_le h.lay
  rw [h.av]; omega

theorem touch_mem' {s s' : Pool} {l : List Nat} {x : Nat} (hs : s'.mem = (s.touch l).mem) (h : ∀ a ∈ l, ¬ (a ≤ x ∧ x < a + hdr)) : s'.mem x = s.mem x := by
  rw [hs]; exact touch_mem h

theorem join_eq {s : Pool} {a b : Nat} (hf : b ∈ s.free) (hb : b ∈ s.block) :
    ∃ m, join s a b = some ⟨s.block.erase b, s.free.erase b, (s.avail + hdr) % W,
      fun x => if x = a then word ((size (s.usize a) + (hdr + size (s.usize b))) % W) (used (s.usize a)) else s.usize x, m⟩ ∧
      ∀ x, (∀ c ∈ s.block, ¬ (c ≤ x ∧ x < c + hdr)) → (∀ c ∈ s.free, ¬ (c ≤ x ∧ x < c + hdr)) → ¬ (a ≤ x ∧ x < a + hdr) → m x = s.mem x := by
  have hb' : b ∈ (s.touch s.free).block := hb
  unfold join Pool.delFree
  rw [if_pos hf, Option.bind_some]
  unfold Pool.delBlock
  dsimp only
  rw [if_pos hb']
  refine ⟨_, rfl, fun x h1 h2 h3 => ?_⟩
  refine (touch_mem (by simpa using h3)).trans ?_
  refine (touch_mem h1).trans ?_
  exact touch_mem h2

/-- Chunk `a` swallows the next one. -/
theorem join_ok {s : Pool} {C1 C2 : List Chunk} {a b : Chunk} {base e r : Nat} (h : Core s (C1 ++ a :: b :: C2) base e r) (hb : b.used = false)
    (ha : a.used = false) :
    ∃ s', join s a.addr b.addr = some s' ∧ Core s' (C1 ++ ⟨a.addr, a.size + hdr + b.size, false⟩ :: C2) base e r ∧
      ∀ x, Clear (C1 ++ a :: b :: C2) x → s'.mem x = s.mem x := by
  have hfree : b.addr ∈ s.free := (h.f _).2 ⟨b, by simp, rfl, hb⟩
  have hblk : b.addr ∈ s.block := by rw [h.blk]; simp
  obtain ⟨l1, l2, l3, l4⟩ := lay_split (C := C1 ++ [a]) (c := b) (D := C2) (by simpa using h.lay)
  obtain ⟨n1, n2, n3, n4⟩ := not_mem_around (C := C1 ++ [a]) (c := b) (D := C2) (by simpa using h.lay)
  obtain ⟨k1, k2, k3, k4⟩ := not_mem_around (C := C1) (c := a) (D := b :: C2) (by simpa using h.lay)
  have hba := l1 a (by simp)
  have hW := h.small
  have ua := h.us a (by simp)
  have ub := h.us b (by simp)
  have ea := h.even a (by simp)
  have eb := h.even b (by simp)
  have hbd := h.bound
  simp only [List.length_append, List.length_cons] at hbd
  obtain ⟨m, e1, e2⟩ := join_eq (a := a.addr) hfree hblk
  refine ⟨_, e1, ?_, ?_⟩
  · have h' : Core s (C1 ++ [a, b] ++ C2) base e r := by simpa using h
    rw [show C1 ++ (⟨a.addr, a.size + hdr + b.size, false⟩ : Chunk) :: C2 = C1 ++ [⟨a.addr, a.size + hdr + b.size, false⟩] ++ C2 by simp]
    have hav := h'.av
    simp only [avl_append, avl, ha, hb, Bool.false_eq_true, if_false] at hav
    refine h'.replace (fun p q hl => ?_) ?_ ?_ ?_ ?_ ?_ ?_ ?_ ?_
    · simp only [Lay] at hl ⊢
      omega
    · show s.block.erase b.addr = _
      rw [h.blk]
      have := erase_split b.addr ((C1 ++ [a]).map (·.addr)) (C2.map (·.addr)) n1
      simpa using this
    · intro c hc
      refine if_neg fun e => ?_
      rcases List.mem_append.1 hc with hc | hc
      · exact k3 c hc e
      · exact k4 c (by simp [hc]) e
    · intro c hc
      simp only [List.mem_singleton] at hc
      subst hc
      dsimp only
      rw [if_pos rfl, ua, ub, size_word _ _ ea, size_word _ _ eb, used_word, ha, Nat.mod_eq_of_lt (by omega), Nat.add_assoc]
    · intro c hc
      simp only [List.mem_singleton] at hc
      subst hc
      dsimp only
      omega
    · intro c hc
      simp only [List.mem_singleton] at hc
      subst hc
      exact h.al a (by simp)
    · exact h.fnd.erase _
    · intro x
      show x ∈ s.free.erase b.addr ↔ _
      rw [h.fnd.mem_erase_iff]
      have hfa : a.addr ∈ s.free := (h.f _).2 ⟨a, by simp, rfl, ha⟩
      simp only [List.mem_cons, List.not_mem_nil, or_false, forall_eq_or_imp, forall_eq, exists_eq_left, and_true]
      constructor
      · rintro ⟨h1, h2⟩
        by_cases e : a.addr = x
        · exact Or.inr e
        · exact Or.inl ⟨h2, e, fun e => h1 e.symm⟩
      · rintro (⟨h1, h2, h3⟩ | h1)
        · exact ⟨fun e => h3 e.symm, h1⟩
        · subst h1
          exact ⟨by omega, hfa⟩
    · show (s.avail + hdr) % W = _
      simp only [avl, ha, hb, Bool.false_eq_true, if_false]
      rw [Nat.mod_eq_of_lt (by omega)]
      omega
  · intro x hx
    obtain ⟨c1, c2⟩ := h.clear hx
    exact e2 x c1 c2 (hx a (by simp))

theorem lay_apart {p e : Nat} {C : List Chunk} (h : Lay p C e) {c d : Chunk} (hc : c ∈ C) (hd : d ∈ C) :
    c = d ∨ c.addr + hdr + c.size ≤ d.addr ∨ d.addr + hdr + d.size ≤ c.addr := by
  obtain ⟨C1, C2, e⟩ := List.append_of_mem hc
  subst e
  obtain ⟨h1, h2, -, -⟩ := lay_split h
  rcases List.mem_append.1 hd with hd | hd
  · exact Or.inr (Or.inr (h1 d hd))
  · rcases List.mem_cons.1 hd with hd | hd
    · exact Or.inl hd.symm
    · exact Or.inr (Or.inl (h2 d hd))

/-- `x` is in the data of a chunk in use. -/
def Held (C : List Chunk) (x : Nat) : Prop := ∃ c ∈ C, c.used = true ∧ c.addr + hdr ≤ x ∧ x < c.addr + hdr + c.size

theorem held_clear {p e : Nat} {C : List Chunk} (h : Lay p C e) {x : Nat} (hx : Held C x) :
    Clear C x ∧ ∀ c ∈ C, c.used = false → ¬ (c.addr ≤ x ∧ x < c.addr + hdr + c.size) := by
  obtain ⟨c, h1, h2, h3, h4⟩ := hx
  refine ⟨fun d hd hh => ?_, fun d hd hu hh => ?_⟩
  · rcases lay_apart h h1 hd with e | e | e
    · subst e; omega
    · omega
    · omega
  · rcases lay_apart h h1 hd with e | e | e
    · subst e; rw [h2] at hu; cases hu
    · omega
    · omega

theorem sub_ok {a b : Nat} (h : b ≤ a) (hw : a < W) : sub a b = a - b := by
  unfold sub
  rw [show a + W - b = (a - b) + W by omega, Nat.add_mod_right, Nat.mod_eq_of_lt (by omega)]

/-- Facts about a chunk of the pool. -/
theorem Core.facts {s : Pool} {C1 C2 : List Chunk} {c : Chunk} {base e r : Nat} (h : Core s (C1 ++ c :: C2) base e r) :
    size (s.usize c.addr) = c.size ∧ used (s.usize c.addr) = c.used ∧ c.size % 2 = 0 ∧ s.avail < W ∧ c.addr + hdr + c.size ≤ e ∧ base ≤ c.addr ∧
      c.addr ∈ s.block ∧ (c.used = false → c.addr ∈ s.free) ∧ (c.used = true → c.addr ∉ s.free) ∧ (c.used = false → c.size ≤ s.avail) ∧
      (c.used = true → s.avail + c.size + hdr ≤ W) := by
  have he := h.even c (by simp)
  have hb := h.bound
  have hs := h.small
  have hl := lay_split h.lay
  obtain ⟨k1, k2, k3, k4⟩ := not_mem_around h.lay
  have hav := h.av
  simp only [avl_append, avl] at hav
  simp only [List.length_append, List.length_cons] at hb
  refine ⟨by rw [h.us c (by simp), size_word _ _ he], by rw [h.us c (by simp), used_word], he, by omega, hl.2.2.2, hl.2.2.1, ?_, ?_, ?_, ?_, ?_⟩
  · rw [h.blk]; simp
  · intro hu; exact (h.f _).2 ⟨c, by simp, rfl, hu⟩
  · intro hu hh
    obtain ⟨d, d1, d2, d3⟩ := (h.f _).1 hh
    rcases List.mem_append.1 d1 with d1 | d1
    · exact k3 d d1 d2
    · rcases List.mem_cons.1 d1 with d1 | d1
      · subst d1; rw [hu] at d3; cases d3
      · exact k4 d d1 d2
  · intro hu; rw [hu] at hav; simp at hav; omega
  · intro hu
    rw [hu] at hav; simp at hav
    obtain ⟨m, a1, a2, a3⟩ := lay_append.1 h.lay
    have b1 := avl_le a1
    have b2 := avl_le a3
    omega

/-- Marking a chunk free. -/
theorem mark_ok {s : Pool} {C1 C2 : List Chunk} {c : Chunk} {base e r : Nat} (h : Core s (C1 ++ c :: C2) base e r) (hu : c.used = true)
    (m : Nat → Option (BitVec 8)) :
    Core ⟨s.block, c.addr :: s.free, (s.avail + size (s.usize c.addr)) % W, fun x => if x = c.addr then word (size (s.usize c.addr)) false else s.usize x, m⟩
      (C1 ++ ⟨c.addr, c.size, false⟩ :: C2) base e r := by
  obtain ⟨f1, f2, f3, f4, f5, f6, f7, f8, f9, f10, f11⟩ := h.facts
  obtain ⟨k1, k2, k3, k4⟩ := not_mem_around h.lay
  have h' : Core s (C1 ++ [c] ++ C2) base e r := by simpa using h
  rw [show C1 ++ (⟨c.addr, c.size, false⟩ : Chunk) :: C2 = C1 ++ [⟨c.addr, c.size, false⟩] ++ C2 by simp]
  have := f11 hu
  refine h'.replace (fun p q hl => hl) ?_ ?_ ?_ ?_ ?_ ?_ ?_ ?_
  · show s.block = _; rw [h.blk]; simp
  · intro d hd
    refine if_neg fun e => ?_
    rcases List.mem_append.1 hd with hd | hd
    · exact k3 d hd e
    · exact k4 d hd e
  · intro d hd
    simp only [List.mem_singleton] at hd
    subst hd
    dsimp only
    rw [if_pos rfl, f1]
  · intro d hd
    simp only [List.mem_singleton] at hd
    subst hd
    exact f3
  · intro d hd
    simp only [List.mem_singleton] at hd
    subst hd
    exact h.al c (by simp)
  · exact List.nodup_cons.2 ⟨f9 hu, h.fnd⟩
  · intro x
    show x ∈ c.addr :: s.free ↔ _
    simp only [List.mem_cons, List.not_mem_nil, or_false, forall_eq, exists_eq_left, and_true]
    constructor
    · rintro (h1 | h1)
      · exact Or.inr h1.symm
      · by_cases e : c.addr = x
        · exact Or.inr e
        · exact Or.inl ⟨h1, e⟩
    · rintro (h1 | h1)
      · exact Or.inr h1.1
      · exact Or.inl h1.symm
  · show (s.avail + size (s.usize c.addr)) % W = _
    rw [f1, Nat.mod_eq_of_lt (by omega)]
    simp [avl, hu]

/-- Taking a whole free chunk. -/
theorem take_ok {s : Pool} {C1 C2 : List Chunk} {c : Chunk} {base e r : Nat} (h : Core s (C1 ++ c :: C2) base e r) (hu : c.used = false)
    (m : Nat → Option (BitVec 8)) :
    Core ⟨s.block, s.free.erase c.addr, sub s.avail c.size, fun x => if x = c.addr then word c.size true else s.usize x, m⟩
      (C1 ++ ⟨c.addr, c.size, true⟩ :: C2) base e r := by
  obtain ⟨f1, f2, f3, f4, f5, f6, f7, f8, f9, f10, f11⟩ := h.facts
  obtain ⟨k1, k2, k3, k4⟩ := not_mem_around h.lay
  have h' : Core s (C1 ++ [c] ++ C2) base e r := by simpa using h
  rw [show C1 ++ (⟨c.addr, c.size, true⟩ : Chunk) :: C2 = C1 ++ [⟨c.addr, c.size, true⟩] ++ C2 by simp]
  have := f10 hu
  refine h'.replace (fun p q hl => hl) ?_ ?_ ?_ ?_ ?_ (h.fnd.erase _) ?_ ?_
  · show s.block = _; rw [h.blk]; simp
  · intro d hd
    refine if_neg fun e => ?_
    rcases List.mem_append.1 hd with hd | hd
    · exact k3 d hd e
    · exact k4 d hd e
  · intro d hd
    simp only [List.mem_singleton] at hd
    subst hd
    exact if_pos rfl
  · intro d hd
    simp only [List.mem_singleton] at hd
    subst hd
    exact f3
  · intro d hd
    simp only [List.mem_singleton] at hd
    subst hd
    exact h.al c (by simp)
  · intro x
    show x ∈ s.free.erase c.addr ↔ _
    rw [h.fnd.mem_erase_iff]
    simp only [List.mem_cons, List.not_mem_nil, or_false, forall_eq, exists_eq_left, Bool.true_eq_false, and_false]
    exact ⟨fun hh => ⟨hh.2, fun e => hh.1 e.symm⟩, fun hh => ⟨fun e => hh.2 e.symm, hh.1⟩⟩
  · show sub s.avail c.size = _
    rw [sub_ok this f4]
    simp [avl, hu]

/-- Taking the beginning of a free chunk. -/
theorem cut_ok {s : Pool} {C1 C2 : List Chunk} {c : Chunk} {base e r : Nat} (h : Core s (C1 ++ c :: C2) base e r) (hu : c.used = false)
    (m : Nat → Option (BitVec 8)) {n k : Nat} (hn : c.size = n + hdr + k) (ha : n % 32 = 0) :
    Core ⟨after c.addr (c.addr + hdr + n) s.block, ((c.addr + hdr + n) :: s.free).erase c.addr, (sub s.avail c.size + k) % W,
      fun x => if x = c.addr then word n true else if x = c.addr + hdr + n then word k false else s.usize x, m⟩
      (C1 ++ ⟨c.addr, n, true⟩ :: ⟨c.addr + hdr + n, k, false⟩ :: C2) base e r := by
  obtain ⟨f1, f2, f3, f4, f5, f6, f7, f8, f9, f10, f11⟩ := h.facts
  obtain ⟨k1, k2, k3, k4⟩ := not_mem_around h.lay
  obtain ⟨l1, l2, -, -⟩ := lay_split h.lay
  have h' : Core s (C1 ++ [c] ++ C2) base e r := by simpa using h
  rw [show C1 ++ (⟨c.addr, n, true⟩ : Chunk) :: ⟨c.addr + hdr + n, k, false⟩ :: C2 = C1 ++ [⟨c.addr, n, true⟩, ⟨c.addr + hdr + n, k, false⟩] ++ C2 by simp]
  have hav := f10 hu
  have hnf : c.addr + hdr + n ∉ s.free := by
    intro hh
    obtain ⟨d, d1, d2, -⟩ := (h.f _).1 hh
    rcases lay_apart h.lay (show c ∈ _ by simp) d1 with e | e | e
    · subst e; omega
    · omega
    · omega
  refine h'.replace (fun p q hl => ?_) ?_ ?_ ?_ ?_ ?_ ((List.nodup_cons.2 ⟨hnf, h.fnd⟩).erase _) ?_ ?_
  · simp only [Lay] at hl ⊢
    omega
  · show after _ _ s.block = _
    rw [h.blk]
    have := after_split c.addr (c.addr + hdr + n) (C1.map (·.addr)) (C2.map (·.addr)) k1
    simpa using this
  · intro d hd
    dsimp only
    rcases List.mem_append.1 hd with hd | hd
    · have := l1 d hd
      rw [if_neg (by omega), if_neg (by omega)]
    · have := l2 d hd
      rw [if_neg (by omega), if_neg (by omega)]
  · intro d hd
    simp only [List.mem_cons, List.not_mem_nil, or_false] at hd
    rcases hd with hd | hd
    · subst hd
      exact if_pos rfl
    · subst hd
      dsimp only
      rw [if_neg (by omega), if_pos rfl]
  · intro d hd
    simp only [List.mem_cons, List.not_mem_nil, or_false] at hd
    rcases hd with hd | hd
    · subst hd; dsimp only; omega
    · subst hd; dsimp only; omega
  · have := h.al c (by simp)
    intro d hd
    simp only [List.mem_cons, List.not_mem_nil, or_false] at hd
    rcases hd with hd | hd
    · subst hd; exact this
    · subst hd; dsimp only; omega
  · intro x
    show x ∈ (_ :: s.free).erase c.addr ↔ _
    rw [(List.nodup_cons.2 ⟨hnf, h.fnd⟩).mem_erase_iff]
    simp only [List.mem_cons, List.not_mem_nil, or_false, forall_eq, exists_eq_or_imp, exists_eq_left, Bool.true_eq_false, and_false, false_or, and_true]
    constructor
    · rintro ⟨h1, h2 | h2⟩
      · exact Or.inr h2.symm
      · exact Or.inl ⟨h2, fun e => h1 e.symm⟩
    · rintro (⟨h1, h2⟩ | h1)
      · exact ⟨fun e => h2 e.symm, Or.inr h1⟩
      · exact ⟨by omega, Or.inl h1.symm⟩
  · show (sub s.avail c.size + k) % W = _
    rw [sub_ok hav f4, Nat.mod_eq_of_lt (by omega)]
    simp [avl, hu]

end Bfdev.Memalloc

import Verif.Mpi.Div
/-! The operations on objects. -/
namespace Bfdev.Mpi
open Dword

/-! ### Storing a result -/

theorem capOf_ge {n : Nat} (h : n ≤ 2 ^ 60) : n ≤ capOf n := by
  have key : ∀ l : List Nat, 60 ∈ l → n ≤ l.foldr (fun k acc => if n ≤ 2 ^ k ∧ 32 ≤ 2 ^ k then 2 ^ k else acc) 0 := by
    intro l
    induction l with
    | nil => intro hm; exact absurd hm List.not_mem_nil
    | cons k l ih =>
      intro hm
      rw [List.foldr_cons]
      by_cases c : n ≤ 2 ^ k ∧ 32 ≤ 2 ^ k
      · rw [if_pos c]; exact c.1
      · rw [if_neg c]
        rcases List.mem_cons.1 hm with e | e
        · exact absurd ⟨e ▸ h, e ▸ (by decide)⟩ c
        · exact ih e
  exact key _ (by simp)

theorem fit_ok {o : Mpi} {g : Bool} {n cap : Nat} {m : Bool} (h : fit o g n = some (cap, m)) : n ≤ cap ∧ (m = true → ¬ n ≤ o.cap) := by
  unfold fit at h
  by_cases c : n ≤ o.cap
  · rw [if_pos c] at h
    cases h
    exact ⟨c, fun h => by simp at h⟩
  · rw [if_neg c] at h
    by_cases c2 : g ∧ n ≤ 2 ^ 60
    · rw [if_pos c2] at h
      cases h
      exact ⟨capOf_ge c2.2, fun _ => c⟩
    · rw [if_neg c2] at h
      cases h

theorem fit_some {o : Mpi} {g : Bool} {n : Nat} (h : n ≤ o.cap ∨ g = true ∧ n ≤ 2 ^ 60) : ∃ r, fit o g n = some r := by
  unfold fit
  by_cases c : n ≤ o.cap
  · rw [if_pos c]; exact ⟨_, rfl⟩
  · rw [if_neg c, if_pos (h.resolve_left c)]; exact ⟨_, rfl⟩

theorem store_self (S : Store) (d cap : Nat) (l : List Nat) : store S d cap l d = ⟨l, cap, (S d).plus⟩ := by
  unfold store; rw [if_pos rfl]
theorem store_ne {S : Store} {d i cap : Nat} {l : List Nat} (h : i ≠ d) : store S d cap l i = S i := by
  unfold store; rw [if_neg h]
theorem store_plus (S : Store) (d cap : Nat) (l : List Nat) (i : Nat) : (store S d cap l i).plus = (S i).plus := by
  by_cases c : i = d
  · rw [c, store_self]
  · rw [store_ne c]
theorem setPlus_self (S : Store) (d : Nat) (p : Bool) : setPlus S d p d = ⟨(S d).limbs, (S d).cap, p⟩ := by
  unfold setPlus; rw [if_pos rfl]
theorem setPlus_ne {S : Store} {d i : Nat} {p : Bool} (h : i ≠ d) : setPlus S d p i = S i := by
  unfold setPlus; rw [if_neg h]

/-- A result that can be stored: words, no leading zero, no more than `n` limbs. -/
structure Good (l : List Nat) (n : Nat) : Prop where
  words : Limbs l
  top : l.getLast? ≠ some 0
  len : l.length ≤ n

theorem good_nil (n : Nat) : Good [] n := ⟨Limbs.nil, by simp, by simp⟩
theorem good_strip {l : List Nat} {n : Nat} (h : Limbs l) (hl : l.length ≤ n) : Good (strip l) n :=
  ⟨(strip_facts l).2.2.2 h, (strip_facts l).2.1, Nat.le_trans (strip_facts l).2.2.1 hl⟩

/-- What storing does: the limbs go to `d`, or the allocator refuses. -/
theorem assign_cases (S : Store) (g : Grant) (d n : Nat) (l : List Nat) :
    (∃ cap, n ≤ cap ∧ assign S g d n l = (store S d cap l, .ok)) ∨
      (assign S g d n l = (S, .nomem) ∧ ¬ n ≤ (S d).cap ∧ ¬ (g.obj d = true ∧ n ≤ 2 ^ 60)) := by
  unfold assign
  rcases h : fit (S d) (g.obj d) n with _ | ⟨cap, m⟩
  · right
    refine ⟨rfl, ?_, ?_⟩ <;> intro c
    · obtain ⟨r, hr⟩ := fit_some (o := S d) (g := g.obj d) (Or.inl c); rw [hr] at h; cases h
    · obtain ⟨r, hr⟩ := fit_some (o := S d) (g := g.obj d) (Or.inr c); rw [hr] at h; cases h
  · left
    exact ⟨cap, (fit_ok h).1, rfl⟩

/-- An outcome in which `d` holds the limbs `l`, with the sign it had, or the allocator refused. -/
def Puts (S : Store) (g : Grant) (d n : Nat) (l : List Nat) (r : Store × Code) : Prop :=
  (∃ cap, l.length ≤ cap ∧ r = (store S d cap l, .ok)) ∨ (r = (S, .nomem) ∧ ¬ n ≤ (S d).cap ∧ ¬ (g.obj d = true ∧ n ≤ 2 ^ 60))

theorem assign_puts {S : Store} {g : Grant} {d n m : Nat} {l : List Nat} (h : Good l n) (hm : n ≤ m) : Puts S g d m l (assign S g d n l) := by
  rcases assign_cases S g d n l with ⟨cap, h1, h2⟩ | ⟨h1, h2, h3⟩
  · exact Or.inl ⟨cap, Nat.le_trans h.len h1, h2⟩
  · exact Or.inr ⟨h1, by omega, fun c => h3 ⟨c.1, by omega⟩⟩

theorem store_same (S : Store) (d : Nat) : store S d (S d).cap (S d).limbs = S := by
  funext i
  by_cases c : i = d
  · subst c; rw [store_self]
  · rw [store_ne c]

theorem mpiSeti_puts (S : Store) (g : Grant) (d vi n : Nat) (hn : 1 ≤ n ∨ vi = 0) : Puts S g d n (if vi ≠ 0 then [vi] else []) (mpiSeti S g d vi) := by
  unfold mpiSeti
  by_cases c : vi = 0
  · rw [if_neg (by omega), if_neg (by omega)]
    rcases assign_cases S g d 0 [] with ⟨cap, h1, h2⟩ | ⟨h1, h2, h3⟩
    · exact Or.inl ⟨cap, h1, h2⟩
    · exact absurd (Nat.zero_le _) h2
  · rw [if_pos (by omega), if_pos (by omega)]
    rcases assign_cases S g d 1 [vi] with ⟨cap, h1, h2⟩ | ⟨h1, h2, h3⟩
    · exact Or.inl ⟨cap, h1, h2⟩
    · exact Or.inr ⟨h1, by omega, fun c => h3 ⟨c.1, by omega⟩⟩

theorem mpiSet_puts {S : Store} {d s : Nat} (g : Grant) (n : Nat) (hs : Wf (S s)) (hn : (S s).limbs.length ≤ n) :
    Puts S g d n (S s).limbs (mpiSet S g d s) := by
  unfold mpiSet
  by_cases c : d = s
  · subst c
    rw [if_pos rfl]
    exact Or.inl ⟨(S d).cap, hs.room, by rw [store_same]⟩
  · rw [if_neg c, mpiCopy, strip_id hs.top]
    exact assign_puts ⟨hs.words, hs.top, Nat.le_refl _⟩ hn

theorem good_seti {vi : Nat} (hv : vi < W64) (n : Nat) (hn : 1 ≤ n ∨ vi = 0) : Good (if vi ≠ 0 then [vi] else []) n := by
  by_cases c : vi = 0
  · rw [if_neg (by omega)]; exact good_nil n
  · rw [if_pos (by omega)]
    exact ⟨Limbs.cons hv Limbs.nil, by simpa using c, by simp; omega⟩
theorem val_seti (vi : Nat) : val (if vi ≠ 0 then [vi] else []) = vi := by
  by_cases c : vi = 0
  · rw [if_neg (by omega), c]; rfl
  · rw [if_pos (by omega)]; simp [val]

theorem Puts.mono {S : Store} {g : Grant} {d n m : Nat} {l : List Nat} {r : Store × Code} (h : Puts S g d n l r) (hm : n ≤ m) : Puts S g d m l r := by
  rcases h with h | ⟨h1, h2, h3⟩
  · exact Or.inl h
  · exact Or.inr ⟨h1, by omega, fun c => h3 ⟨c.1, by omega⟩⟩

/-- Storing, then assigning the sign. -/
theorem Puts.yields {S : Store} {g : Grant} {d n m : Nat} {l : List Nat} {r : Store × Code} (h : Puts S g d m l r) (hg : Good l n) (hm : m ≤ n)
    (p : Store → Bool) (s : Bool) (hp : ∀ cap, p (store S d cap l) = s) (v : Int) (hv : (if s then (val l : Int) else -(val l : Int)) = v) :
    Yields S g d n (some (thenPlus r d p)) v := by
  unfold thenPlus
  rcases h with ⟨cap, h1, h2⟩ | ⟨h1, h2, h3⟩
  · subst h2
    rw [if_pos rfl]
    dsimp only
    refine ⟨_, _, rfl, ?_, Or.inl ⟨rfl, ?_, ?_⟩, fun _ _ => rfl⟩
    · intro i hi
      rw [setPlus_ne hi, store_ne hi]
    · rw [setPlus_self, store_self]
      exact ⟨hg.words, hg.top, h1⟩
    · rw [setPlus_self, store_self, hp]
      exact hv
  · subst h1
    rw [if_neg (by simp)]
    exact ⟨_, _, rfl, fun _ _ => rfl, Or.inr ⟨rfl, rfl⟩, fun c1 c2 => absurd ⟨c1, by omega⟩ h3⟩

/-! ### Magnitudes -/

theorem mpiAddi_puts {S : Store} {d a vi : Nat} (g : Grant) (ha : Wf (S a)) (hv : vi < W64) :
    ∃ l, Puts S g d ((S a).limbs.length + 1) l (mpiAddi S g d a vi) ∧ Good l ((S a).limbs.length + 1) ∧ val l = val (S a).limbs + vi := by
  unfold mpiAddi
  dsimp only
  by_cases c : (S a).limbs.length = 0
  · rw [if_pos c]
    refine ⟨_, mpiSeti_puts S g d vi _ (Or.inl (by omega)), good_seti hv _ (Or.inl (by omega)), ?_⟩
    rw [val_seti, List.length_eq_zero_iff.1 c]; simp [val]
  · rw [if_neg c]
    obtain ⟨h1, h2, h3, h4⟩ := mpaAddi_ok ha.words (fun n => c (by rw [n]; rfl)) hv
    have hg : Good (strip ((mpaAddi (S a).limbs vi).1 ++ [(mpaAddi (S a).limbs vi).2])) ((S a).limbs.length + 1) :=
      good_strip (h3.append (Limbs.cons (by simp only [W64]; omega) Limbs.nil)) (by simp [h2])
    exact ⟨_, assign_puts hg (Nat.le_refl _), hg, by rw [(strip_facts _).1, val_snoc, h2, h1]⟩

/-- The limbs `mpi_add` computes. -/
theorem mpaAdd_strip {a b : List Nat} (ha : Limbs a) (hb : Limbs b) :
    Good (strip ((mpaAdd a b 0).1 ++ [(mpaAdd a b 0).2])) (max a.length b.length + 1) ∧
      (val (strip ((mpaAdd a b 0).1 ++ [(mpaAdd a b 0).2])) = val a + val b ↔ NoLostCarry a b) := by
  obtain ⟨h1, h2, h3, h4, h5⟩ := mpaAdd_ok a b 0 (by decide) ha hb
  refine ⟨good_strip (h2.append (Limbs.cons (by simp only [W64]; omega) Limbs.nil)) (by simp [h1]), ?_⟩
  rw [(strip_facts _).1, val_snoc, h1]
  exact h5

theorem val_single {l : List Nat} (h : l.length = 1) : val l = l.headD 0 := by
  rcases l with _ | ⟨x, _ | ⟨y, l⟩⟩
  · simp at h
  · simp [val]
  · simp at h
theorem head_lt {l : List Nat} (h : Limbs l) : l.headD 0 < W64 := by
  rcases l with _ | ⟨x, l⟩
  · decide
  · exact h.head

theorem mpiAdd_puts {S : Store} {d a b : Nat} (g : Grant) (ha : Wf (S a)) (hb : Wf (S b)) (hs : AddSafe S d a b) :
    ∃ r l, mpiAdd S g d a b = some r ∧ Puts S g d (max (S a).limbs.length (S b).limbs.length + 1) l r ∧
      Good l (max (S a).limbs.length (S b).limbs.length + 1) ∧ val l = val (S a).limbs + val (S b).limbs := by
  unfold mpiAdd
  dsimp only
  by_cases c1 : (S a).limbs.length = 0
  · rw [if_pos c1]
    refine ⟨_, _, rfl, mpiSet_puts g _ hb (by omega), ⟨hb.words, hb.top, by omega⟩, ?_⟩
    rw [List.length_eq_zero_iff.1 c1]; simp [val]
  rw [if_neg c1]
  by_cases c2 : (S b).limbs.length = 0
  · rw [if_pos c2]
    refine ⟨_, _, rfl, mpiSet_puts g _ ha (by omega), ⟨ha.words, ha.top, by omega⟩, ?_⟩
    rw [List.length_eq_zero_iff.1 c2]; simp [val]
  rw [if_neg c2]
  by_cases c3 : (S b).limbs.length = 1
  · rw [if_pos c3]
    obtain ⟨l, h1, h2, h3⟩ := mpiAddi_puts (d := d) g ha (head_lt hb.words)
    exact ⟨_, l, rfl, h1.mono (by omega), ⟨h2.words, h2.top, by have := h2.len; omega⟩, by rw [h3, val_single c3]⟩
  rw [if_neg c3, if_neg]
  · obtain ⟨h1, h2⟩ := mpaAdd_strip ha.words hb.words
    exact ⟨_, _, rfl, assign_puts h1 (Nat.le_refl _), h1, h2.2 hs.1⟩
  · rintro ⟨e, hm⟩
    have hr := hs.2 e (by omega)
    unfold moves at hm
    rcases h : fit (S d) (g.obj d) (max (S a).limbs.length (S b).limbs.length + 1) with _ | ⟨cap, m⟩
    · rw [h] at hm; cases hm
    · rw [h] at hm
      exact (fit_ok h).2 hm hr

theorem mpiSubi_puts {S : Store} {d a vi : Nat} (g : Grant) (ha : Wf (S a)) (hv : vi < W64) (hne : (S a).limbs ≠ []) (hle : vi ≤ val (S a).limbs) :
    ∃ r l, mpiSubi S g d a vi = some r ∧ Puts S g d (S a).limbs.length l r ∧ Good l (S a).limbs.length ∧ val l + vi = val (S a).limbs := by
  obtain ⟨h1, h2, h3, h4⟩ := mpaSubi_ok ha.words hne hv
  have hlt := val_lt h3
  rw [h2] at hlt
  have h0 : (mpaSubi (S a).limbs vi).2 = 0 := by
    apply Classical.byContradiction
    intro n
    have e1 : (mpaSubi (S a).limbs vi).2 = 1 := by omega
    rw [e1] at h1
    omega
  rw [h0, Nat.mul_zero, Nat.add_zero] at h1
  have hg : Good (strip (mpaSubi (S a).limbs vi).1) (S a).limbs.length := good_strip h3 (by omega)
  have hp := assign_puts (S := S) (g := g) (d := d) hg (Nat.le_refl _)
  have he : mpiSubi S g d a vi = some (assign S g d (S a).limbs.length (strip (mpaSubi (S a).limbs vi).1)) := by
    unfold mpiSubi assign
    dsimp only
    rw [if_neg (fun n => hne (List.length_eq_zero_iff.1 n))]
    rcases fit (S d) (g.obj d) (S a).limbs.length with _ | ⟨cap, m⟩
    · rfl
    · dsimp only
      rw [if_neg (by simp [h0])]
  exact ⟨_, _, he, hp, hg, by rw [(strip_facts _).1]; exact h1⟩

theorem mpiSub_puts {S : Store} {d a b : Nat} (g : Grant) (ha : Wf (S a)) (hb : Wf (S b)) (hle : val (S b).limbs ≤ val (S a).limbs)
    (hs : SubSafe S d a b) :
    ∃ r l, mpiSub S g d a b = some r ∧ Puts S g d (S a).limbs.length l r ∧ Good l (S a).limbs.length ∧
      val l + val (S b).limbs = val (S a).limbs := by
  have hll : (S b).limbs.length ≤ (S a).limbs.length := by
    apply Classical.byContradiction
    intro n
    have := val_lt_of_length ha.words hb.top (by omega)
    omega
  by_cases c1 : (S b).limbs.length = 0
  · refine ⟨_, _, by unfold mpiSub; dsimp only; rw [if_pos c1], mpiSet_puts g _ ha (Nat.le_refl _), ⟨ha.words, ha.top, Nat.le_refl _⟩, ?_⟩
    rw [List.length_eq_zero_iff.1 c1]; simp [val]
  by_cases c2 : (S b).limbs.length = 1
  · rw [val_single c2] at hle ⊢
    obtain ⟨r, l, e, h⟩ := mpiSubi_puts (d := d) g ha (head_lt hb.words) (by intro n; rw [n, c2] at hll; simp at hll) hle
    exact ⟨r, l, by unfold mpiSub; dsimp only; rw [if_neg c1, if_pos c2]; exact e, h⟩
  obtain ⟨h1, h2, h3, h4, h5⟩ := mpaSub_ok (S a).limbs (S b).limbs 0 (by decide) ha.words hb.words hll
  have e := h5.2 (noLostB_zero.2 hs.1)
  have hlt := val_lt h2
  rw [h1] at hlt
  have h0 : (mpaSub (S a).limbs (S b).limbs 0).2 = 0 := by
    apply Classical.byContradiction
    intro n
    have e1 : (mpaSub (S a).limbs (S b).limbs 0).2 = 1 := by omega
    rw [e1] at e
    omega
  rw [h0, Nat.mul_zero] at e
  have hg : Good (strip (mpaSub (S a).limbs (S b).limbs 0).1) (S a).limbs.length := good_strip h2 (by omega)
  have hp := assign_puts (S := S) (g := g) (d := d) hg (Nat.le_refl _)
  have he : mpiSub S g d a b = some (assign S g d (S a).limbs.length (strip (mpaSub (S a).limbs (S b).limbs 0).1)) := by
    unfold mpiSub assign
    dsimp only
    rw [if_neg c1, if_neg c2, if_neg (by omega)]
    rcases hf : fit (S d) (g.obj d) (S a).limbs.length with _ | ⟨cap, m⟩
    · rfl
    · dsimp only
      rw [if_neg (fun n => (fit_ok hf).2 n.2 (hs.2 n.1 (by omega))), if_neg (by simp [h0])]
  exact ⟨_, _, he, hp, hg, by rw [(strip_facts _).1]; omega⟩

theorem mpiMuli_puts {S : Store} {d a vi : Nat} (g : Grant) (ha : Wf (S a)) (hv : vi < W64) :
    ∃ l, Puts S g d ((S a).limbs.length + 1) l (mpiMuli S g d a vi) ∧ Good l ((S a).limbs.length + 1) ∧ val l = val (S a).limbs * vi := by
  unfold mpiMuli
  dsimp only
  by_cases c : (S a).limbs.length = 0 ∨ vi = 0
  · rw [if_pos c]
    refine ⟨_, mpiSeti_puts S g d 0 _ (Or.inr rfl), good_seti (by decide) _ (Or.inr rfl), ?_⟩
    rw [val_seti]
    rcases c with c | c
    · rw [List.length_eq_zero_iff.1 c]; simp [val]
    · rw [c]; rfl
  · rw [if_neg c]
    obtain ⟨h1, h2, h3, h4⟩ := mpaMuli_ok vi hv (S a).limbs 0 (by decide) ha.words
    have hg : Good (strip ((mpaMuli (S a).limbs vi 0).1 ++ [(mpaMuli (S a).limbs vi 0).2])) ((S a).limbs.length + 1) :=
      good_strip (h3.append (Limbs.cons h4 Limbs.nil)) (by simp [h2])
    exact ⟨_, assign_puts hg (Nat.le_refl _), hg, by rw [(strip_facts _).1, val_snoc, h2, h1]; omega⟩

end Bfdev.Mpi

import Verif.Mpi.Objects
/-! Comparison, sum, difference and product of big integers: C40, C41, C43. -/
namespace Bfdev.Mpi
open Dword

/-! ### C43: comparison -/

theorem compare_cast (a b : Nat) : compare (a : Int) (b : Int) = compare a b := by
  rcases Nat.lt_trichotomy a b with h | h | h
  · rw [Nat.compare_eq_lt.2 h]; exact Int.compare_eq_lt.2 (by omega)
  · subst h; rw [Nat.compare_eq_eq.2 rfl]; exact Int.compare_eq_eq.2 rfl
  · rw [Nat.compare_eq_gt.2 h]; exact Int.compare_eq_gt.2 (by omega)

theorem minus_neg {a : Mpi} (ha : Wf a) (hz : NoMinusZero a) (hp : a.plus = false) : 0 < val a.limbs :=
  val_pos ha.top (fun n => by rw [hz n] at hp; cases hp)

/-- C43: comparing two objects gives the order of the integers they denote. Missing: a zero with a minus sign, see `cmp_violated`. -/
theorem cmp_correct_partial (a b : Mpi) (ha : Wf a) (hb : Wf b) (na : NoMinusZero a) (nb : NoMinusZero b) :
    cmp a b = compare (value a) (value b) := by
  have hm := mpiCmp_eq ha hb
  unfold cmp value
  by_cases c : a.plus ≠ b.plus
  · rw [if_pos c]
    rcases h1 : a.plus with _ | _
    · have h2 : b.plus = true := by rcases h : b.plus with _ | _ <;> simp_all
      have := minus_neg ha na h1
      rw [h2]
      exact (Int.compare_eq_lt.2 (by simp only [Bool.false_eq_true, if_false, if_true]; omega)).symm
    · have h2 : b.plus = false := by rcases h : b.plus with _ | _ <;> simp_all
      have := minus_neg hb nb h2
      rw [h2]
      exact (Int.compare_eq_gt.2 (by simp only [Bool.false_eq_true, if_false, if_true]; omega)).symm
  · have e : a.plus = b.plus := by simpa using c
    rw [if_neg c, hm, e]
    rcases b.plus with _ | _
    · simp only [Bool.false_eq_true, if_false]
      rcases Nat.lt_trichotomy (val a.limbs) (val b.limbs) with h | h | h
      · rw [Nat.compare_eq_lt.2 h]; exact (Int.compare_eq_gt.2 (by omega)).symm
      · rw [Nat.compare_eq_eq.2 h]; exact (Int.compare_eq_eq.2 (by omega)).symm
      · rw [Nat.compare_eq_gt.2 h]; exact (Int.compare_eq_lt.2 (by omega)).symm
    · simp only [if_true]
      rw [compare_cast]
      rcases compare (val a.limbs) (val b.limbs) <;> rfl

/-- C43 for a machine word. Missing: a zero with a minus sign. -/
theorem cmpi_correct_partial (a : Mpi) (vi : Nat) (ha : Wf a) (na : NoMinusZero a) (hv : vi < W64) : cmpi a vi = compare (value a) vi := by
  unfold cmpi value
  rcases h1 : a.plus with _ | _
  · have := minus_neg ha na h1
    exact (Int.compare_eq_lt.2 (by simp only [Bool.false_eq_true, if_false]; omega)).symm
  · simp only [Bool.not_true, Bool.false_eq_true, if_false, if_true]
    rw [mpiCmpi_eq ha hv, compare_cast]

/-- An allocator that never refuses. -/
def generous : Grant := ⟨fun _ => true, true⟩

/-- What a program sees of object `i` and the return code. -/
def view (i : Nat) (r : Res) : Option (Mpi × Code) := r.map fun s => (s.1 i, s.2)

example : cmp ⟨[5, 7], 32, false⟩ ⟨[9, 6], 32, false⟩ = .lt := by decide +kernel
example : Wf ⟨[5, 7], 32, false⟩ ∧ NoMinusZero ⟨[5, 7], 32, false⟩ := ⟨by decide +kernel, by intro h; cases h⟩

/-- C43 fails for zeros: reading in -5 and multiplying by 0 gives an object that denotes 0 and compares below a fresh object, and below the
word 0. -/
theorem cmp_violated :
    let r := muli (import_ (fun _ => init) generous 0 [5] false).1 generous 0 0 0
    r.2 = .ok ∧ value (r.1 0) = 0 ∧ value init = 0 ∧ cmp (r.1 0) init = .lt ∧ cmpi (r.1 0) 0 = .lt := by
  decide +kernel

/-! ### Assignment -/

/-- C75: assigning a word, another object, or limbs with a sign gives the object that value; leading zero limbs do not count. -/
theorem seti_correct (S : Store) (g : Grant) (d vi : Nat) (hv : vi < W64) : Yields S g d 1 (some (seti S g d vi)) vi :=
  (mpiSeti_puts S g d vi 1 (Or.inl (Nat.le_refl _))).yields (good_seti hv 1 (Or.inl (Nat.le_refl _))) (Nat.le_refl _) _ true (fun _ => rfl) _
    (by rw [val_seti]; rfl)
theorem set_correct (S : Store) (g : Grant) (d s : Nat) (hs : Wf (S s)) : Yields S g d (S s).limbs.length (some (set S g d s)) (value (S s)) :=
  (mpiSet_puts g _ hs (Nat.le_refl _)).yields ⟨hs.words, hs.top, Nat.le_refl _⟩ (Nat.le_refl _) _ (S s).plus (fun cap => store_plus _ _ _ _ _) _ rfl
theorem import_correct (S : Store) (g : Grant) (d : Nat) (l : List Nat) (sign : Bool) (hl : Limbs l) :
    Yields S g d l.length (some (import_ S g d l sign)) (if sign then (val l : Int) else -(val l : Int)) := by
  have hg := good_strip hl (Nat.le_refl _)
  refine (assign_puts hg (Nat.le_refl _)).yields hg (Nat.le_refl _) _ sign (fun _ => rfl) _ ?_
  rw [(strip_facts l).1]

example : (import_ (fun _ => init) generous 0 [5, 0, 7, 0, 0] false).1 0 = ⟨[5, 0, 7], 32, false⟩ := by decide +kernel

/-! ### C40: sum and difference -/

theorem max_comm' (a b : Nat) : max a b = max b a := Nat.max_comm a b

theorem yields_mono {S : Store} {g : Grant} {d n m : Nat} {r : Res} {v : Int} (h : Yields S g d n r v) (hm : n ≤ m) : Yields S g d m r v := by
  obtain ⟨S', c, h1, h2, h3, h4⟩ := h
  exact ⟨S', c, h1, h2, h3, fun x y => h4 x (by omega)⟩

theorem addOrd_ok (S : Store) (g : Grant) (d a b : Nat) (ha : Wf (S a)) (hb : Wf (S b))
    (h1 : (S a).plus = (S b).plus → AddSafe S d a b)
    (h2 : (S a).plus ≠ (S b).plus → val (S b).limbs < val (S a).limbs → SubSafe S d a b)
    (h3 : (S a).plus ≠ (S b).plus → val (S a).limbs < val (S b).limbs → SubSafe S d b a) :
    Yields S g d (max (S a).limbs.length (S b).limbs.length + 1) (addOrd S g d a b) (value (S a) + value (S b)) := by
  unfold addOrd
  by_cases c : (S a).plus = (S b).plus
  · rw [if_pos c]
    obtain ⟨r, l, e1, e2, e3, e4⟩ := mpiAdd_puts g ha hb (h1 c)
    rw [e1, Option.map_some]
    refine e2.yields e3 (Nat.le_refl _) _ (S a).plus (fun cap => store_plus _ _ _ _ _) _ ?_
    rw [e4]
    unfold value
    rw [← c]
    rcases (S a).plus <;> simp <;> omega
  · rw [if_neg c, mpiCmp_eq ha hb]
    rcases Nat.lt_trichotomy (val (S a).limbs) (val (S b).limbs) with h | h | h
    · rw [Nat.compare_eq_lt.2 h]
      obtain ⟨r, l, e1, e2, e3, e4⟩ := mpiSub_puts g hb ha (Nat.le_of_lt h) (h3 c h)
      dsimp only
      rw [e1, Option.map_some]
      refine e2.yields ⟨e3.words, e3.top, by have := e3.len; omega⟩ (by omega) _ (S b).plus (fun cap => store_plus _ _ _ _ _) _ ?_
      unfold value
      rcases h4 : (S b).plus <;> rcases h5 : (S a).plus <;> simp_all <;> omega
    · rw [Nat.compare_eq_eq.2 h]
      refine (mpiSeti_puts S g d 0 _ (Or.inr rfl)).yields (good_seti (by decide) _ (Or.inr rfl)) (Nat.le_refl _) _ true (fun _ => rfl) _ ?_
      rw [val_seti]
      unfold value
      rcases h4 : (S b).plus <;> rcases h5 : (S a).plus <;> simp_all <;> omega
    · rw [Nat.compare_eq_gt.2 h]
      obtain ⟨r, l, e1, e2, e3, e4⟩ := mpiSub_puts g ha hb (Nat.le_of_lt h) (h2 c h)
      dsimp only
      rw [e1, Option.map_some]
      refine e2.yields ⟨e3.words, e3.top, by have := e3.len; omega⟩ (by omega) _ (S a).plus (fun cap => store_plus _ _ _ _ _) _ ?_
      unfold value
      rcases h4 : (S b).plus <;> rcases h5 : (S a).plus <;> simp_all <;> omega

/-- C40: the sum. Missing: a carry or borrow that arrives at a limb 2^64 - 1 of the operand added or subtracted (`add_lost_carry_violated`,
`add_lost_borrow_violated`), and a result that is the shorter or smaller operand and whose block has to grow (`add_alias_violated`). -/
theorem add_correct_partial (S : Store) (g : Grant) (d a b : Nat) (ha : Wf (S a)) (hb : Wf (S b))
    (h1 : (S a).plus = (S b).plus → AddSafe S d (longer S a b) (shorter S a b))
    (h2 : (S a).plus ≠ (S b).plus → val (S b).limbs < val (S a).limbs → SubSafe S d a b)
    (h3 : (S a).plus ≠ (S b).plus → val (S a).limbs < val (S b).limbs → SubSafe S d b a) :
    Yields S g d (max (S a).limbs.length (S b).limbs.length + 1) (add S g d a b) (value (S a) + value (S b)) := by
  unfold add
  unfold longer shorter at h1
  by_cases c : (S a).limbs.length < (S b).limbs.length
  · rw [if_pos c, max_comm', Int.add_comm]
    rw [if_pos c, if_pos c] at h1
    exact addOrd_ok S g d b a hb ha (fun e => h1 e.symm) (fun e => h3 (fun n => e n.symm)) (fun e => h2 (fun n => e n.symm))
  · rw [if_neg c]
    rw [if_neg c, if_neg c] at h1
    exact addOrd_ok S g d a b ha hb h1 h2 h3

/-- C40: the difference. Missing: as for the sum. -/
theorem sub_correct_partial (S : Store) (g : Grant) (d a b : Nat) (ha : Wf (S a)) (hb : Wf (S b))
    (h1 : (S a).plus ≠ (S b).plus → AddSafe S d a b)
    (h2 : (S a).plus = (S b).plus → val (S b).limbs < val (S a).limbs → SubSafe S d a b)
    (h3 : (S a).plus = (S b).plus → val (S a).limbs < val (S b).limbs → SubSafe S d b a) :
    Yields S g d (max (S a).limbs.length (S b).limbs.length + 1) (sub S g d a b) (value (S a) - value (S b)) := by
  unfold sub
  by_cases c : (S a).plus = (S b).plus
  · rw [if_neg (by simpa using c), mpiCmp_eq ha hb]
    rcases Nat.lt_trichotomy (val (S a).limbs) (val (S b).limbs) with h | h | h
    · rw [Nat.compare_eq_lt.2 h]
      obtain ⟨r, l, e1, e2, e3, e4⟩ := mpiSub_puts g hb ha (Nat.le_of_lt h) (h3 c h)
      dsimp only
      rw [e1, Option.map_some]
      refine e2.yields ⟨e3.words, e3.top, by have := e3.len; omega⟩ (by omega) _ (!(S b).plus) (fun cap => by rw [store_plus]) _ ?_
      unfold value
      rcases h4 : (S b).plus <;> rcases h5 : (S a).plus <;> simp_all <;> omega
    · rw [Nat.compare_eq_eq.2 h]
      refine (mpiSeti_puts S g d 0 _ (Or.inr rfl)).yields (good_seti (by decide) _ (Or.inr rfl)) (Nat.le_refl _) _ true (fun _ => rfl) _ ?_
      rw [val_seti]
      unfold value
      rcases h4 : (S b).plus <;> rcases h5 : (S a).plus <;> simp_all
    · rw [Nat.compare_eq_gt.2 h]
      obtain ⟨r, l, e1, e2, e3, e4⟩ := mpiSub_puts g ha hb (Nat.le_of_lt h) (h2 c h)
      dsimp only
      rw [e1, Option.map_some]
      refine e2.yields ⟨e3.words, e3.top, by have := e3.len; omega⟩ (by omega) _ (S a).plus (fun cap => store_plus _ _ _ _ _) _ ?_
      unfold value
      rcases h4 : (S b).plus <;> rcases h5 : (S a).plus <;> simp_all <;> omega
  · rw [if_pos c]
    obtain ⟨r, l, e1, e2, e3, e4⟩ := mpiAdd_puts g ha hb (h1 c)
    rw [e1, Option.map_some]
    refine e2.yields e3 (Nat.le_refl _) _ (S a).plus (fun cap => store_plus _ _ _ _ _) _ ?_
    rw [e4]
    unfold value
    rcases h4 : (S b).plus <;> rcases h5 : (S a).plus <;> simp_all <;> omega

/-- C40: adding a word. Missing: a negative number other than a single limb not above the word (`addi_violated`, `addi_undefined`). -/
theorem addi_correct_partial (S : Store) (g : Grant) (d a vi : Nat) (ha : Wf (S a)) (hv : vi < W64)
    (h : (S a).plus = true ∨ (S a).limbs ≠ [] ∧ val (S a).limbs ≤ vi) :
    Yields S g d ((S a).limbs.length + 1) (addi S g d a vi) (value (S a) + vi) := by
  unfold addi
  rcases hp : (S a).plus with _ | _
  · obtain ⟨hne, hle⟩ := h.resolve_left (by simp [hp])
    rw [if_neg (by simp)]
    have hc : cmpi (S a) vi = .lt := by unfold cmpi; rw [hp]; rfl
    rw [hc]
    dsimp only
    rcases hl : (S a).limbs with _ | ⟨x, t⟩
    · exact absurd hl hne
    · have ht : t = [] := by
        apply Classical.byContradiction
        intro n
        have := val_ge ha.top hne
        have e1 : 1 ≤ (S a).limbs.length - 1 := by rw [hl]; have := List.length_pos_iff.2 n; simp only [List.length_cons]; omega
        have : W64 ^ 1 ≤ W64 ^ ((S a).limbs.length - 1) := Nat.pow_le_pow_right (by decide) e1
        rw [Nat.pow_one] at this
        omega
      subst ht
      have hx : val [x] = x := by simp [val]
      rw [hl, hx] at hle
      have hxl := ha.words
      rw [hl] at hxl
      have hw : wsub vi x = vi - x := by
        have := hxl.head
        unfold wsub; simp only [W64] at *; omega
      dsimp only
      refine (mpiSeti_puts S g d _ _ (Or.inl (by simp))).yields (good_seti (by rw [hw]; omega) _ (Or.inl (by simp))) (Nat.le_refl _) _ true (fun _ => rfl) _ ?_
      rw [val_seti, hw]
      unfold value
      rw [hp, hl, hx]
      simp only [if_true, Bool.false_eq_true, if_false]
      omega
  · rw [if_pos rfl]
    obtain ⟨l, e2, e3, e4⟩ := mpiAddi_puts (d := d) g ha hv
    refine e2.yields e3 (Nat.le_refl _) _ true (fun _ => rfl) _ ?_
    rw [e4]
    unfold value
    rw [hp]
    simp

/-- C40: subtracting a word. Missing: subtracting from a non-negative zero (`subi_undefined`). -/
theorem subi_correct_partial (S : Store) (g : Grant) (d a vi : Nat) (ha : Wf (S a)) (hv : vi < W64)
    (h : (S a).plus = true → (S a).limbs = [] → vi = 0) :
    Yields S g d ((S a).limbs.length + 1) (subi S g d a vi) (value (S a) - vi) := by
  unfold subi
  rcases hp : (S a).plus with _ | _
  · rw [if_pos (by simp)]
    obtain ⟨l, e2, e3, e4⟩ := mpiAddi_puts (d := d) g ha hv
    refine e2.yields e3 (Nat.le_refl _) _ false (fun _ => rfl) _ ?_
    rw [e4]
    unfold value
    rw [hp]
    simp; omega
  · rw [if_neg (by simp), mpiCmpi_eq ha hv]
    rcases Nat.lt_trichotomy (val (S a).limbs) vi with c | c | c
    · rw [Nat.compare_eq_lt.2 c]
      dsimp only
      rcases hl : (S a).limbs with _ | ⟨x, t⟩
      · have := h hp hl
        omega
      · have hne : (S a).limbs ≠ [] := by rw [hl]; simp
        have ht : t = [] := by
          apply Classical.byContradiction
          intro n
          have := val_ge ha.top hne
          have e1 : 1 ≤ (S a).limbs.length - 1 := by rw [hl]; have := List.length_pos_iff.2 n; simp only [List.length_cons]; omega
          have : W64 ^ 1 ≤ W64 ^ ((S a).limbs.length - 1) := Nat.pow_le_pow_right (by decide) e1
          rw [Nat.pow_one] at this
          omega
        subst ht
        have hx : val [x] = x := by simp [val]
        rw [hl, hx] at c
        have hw : wsub vi x = vi - x := by unfold wsub; simp only [W64] at *; omega
        dsimp only
        refine (mpiSeti_puts S g d _ _ (Or.inl (by simp))).yields (good_seti (by rw [hw]; omega) _ (Or.inl (by simp))) (Nat.le_refl _) _ false (fun _ => rfl) _ ?_
        rw [val_seti, hw]
        unfold value
        rw [hp, hl, hx]
        simp only [if_true, Bool.false_eq_true, if_false]
        omega
    · rw [Nat.compare_eq_eq.2 c]
      refine (mpiSeti_puts S g d 0 _ (Or.inr rfl)).yields (good_seti (by decide) _ (Or.inr rfl)) (Nat.le_refl _) _ true (fun _ => rfl) _ ?_
      rw [val_seti]
      unfold value
      rw [hp, c]
      simp
    · rw [Nat.compare_eq_gt.2 c]
      have hne : (S a).limbs ≠ [] := by intro n; rw [n] at c; simp [val] at c
      obtain ⟨r, l, e1, e2, e3, e4⟩ := mpiSubi_puts (d := d) g ha hv hne (Nat.le_of_lt c)
      dsimp only
      rw [e1, Option.map_some]
      refine e2.yields ⟨e3.words, e3.top, by have := e3.len; omega⟩ (by omega) _ true (fun cap => by rw [store_plus, hp]) _ ?_
      unfold value
      rw [hp]
      simp only [if_true]
      omega

/-- Whether the carry is lost decides the sum: of two numbers of one sign with at least two limbs each, a successful addition leaves the
sum exactly when no carry arrives at a limb 2^64 - 1 of the shorter one. -/
theorem add_exact_iff (S : Store) (g : Grant) (d a b : Nat) (ha : Wf (S a)) (hb : Wf (S b)) (hp : (S a).plus = (S b).plus)
    (h2 : 2 ≤ (S (shorter S a b)).limbs.length) (S' : Store) (h : add S g d a b = some (S', .ok)) :
    value (S' d) = value (S a) + value (S b) ↔ NoLostCarry (S (longer S a b)).limbs (S (shorter S a b)).limbs := by
  have key : ∀ x y, Wf (S x) → Wf (S y) → (S x).plus = (S y).plus → 2 ≤ (S y).limbs.length → (S y).limbs.length ≤ (S x).limbs.length →
      addOrd S g d x y = some (S', .ok) → (value (S' d) = value (S x) + value (S y) ↔ NoLostCarry (S x).limbs (S y).limbs) := by
    intro x y hx hy hp h2 hl h
    unfold addOrd mpiAdd at h
    dsimp only at h
    rw [if_pos hp, if_neg (by omega), if_neg (by omega), if_neg (by omega)] at h
    by_cases c : d = y ∧ moves S g d (max (S x).limbs.length (S y).limbs.length + 1) = true
    · rw [if_pos c] at h; cases h
    · rw [if_neg c, Option.map_some] at h
      obtain ⟨k1, k2⟩ := mpaAdd_strip hx.words hy.words
      rcases assign_cases S g d (max (S x).limbs.length (S y).limbs.length + 1)
        (strip ((mpaAdd (S x).limbs (S y).limbs 0).1 ++ [(mpaAdd (S x).limbs (S y).limbs 0).2])) with ⟨cap, _, e⟩ | ⟨e, _⟩
      · rw [e] at h
        unfold thenPlus at h
        rw [if_pos rfl] at h
        simp only [Option.some.injEq, Prod.mk.injEq, and_true] at h
        rw [← h, setPlus_self, store_self, store_plus, ← k2]
        unfold value
        rw [← hp]
        rcases (S x).plus <;> simp <;> omega
      · rw [e] at h
        unfold thenPlus at h
        rw [if_neg (by simp)] at h
        simp at h
  unfold add at h
  unfold longer shorter at *
  by_cases c : (S a).limbs.length < (S b).limbs.length
  · rw [if_pos c] at h
    rw [if_pos c] at h2
    rw [if_pos c, if_pos c, Int.add_comm]
    exact key b a hb ha hp.symm h2 (by omega) h
  · rw [if_neg c] at h
    rw [if_neg c] at h2
    rw [if_neg c, if_neg c]
    exact key a b ha hb hp h2 (by omega) h

/-- Objects 0 and 1 for the examples. -/
def two (x y : Mpi) : Store := fun i => if i = 0 then x else if i = 1 then y else init

example : view 2 (add (two ⟨[MAX, 1], 32, true⟩ ⟨[1, 5], 32, false⟩) generous 2 0 1) = some (⟨[2, 3], 32, false⟩, .ok) := by decide +kernel
example : SubSafe (two ⟨[MAX, 1], 32, true⟩ ⟨[1, 5], 32, false⟩) 2 1 0 :=
  ⟨fun i h1 h2 h3 => by
    have : i = 0 ∨ i = 1 := by
      have : i < 2 := h1
      omega
    rcases this with e | e
    · subst e; intro h; exact absurd h (by decide +kernel)
    · subst e; exact absurd h3 (by decide +kernel), fun h => by cases h⟩

/-- C40 fails: adding [1, 1, 1] and [MAX, MAX, 1] drops the carry out of the second limb; the sum comes out too small by 2^128. -/
theorem add_lost_carry_violated :
    let S := two ⟨[1, 1, 1], 32, true⟩ ⟨[MAX, MAX, 1], 32, true⟩
    Wf (S 0) ∧ Wf (S 1) ∧ view 2 (add S generous 2 0 1) = some (⟨[0, 1, 2], 32, true⟩, .ok) ∧
      val [0, 1, 2] + W64 ^ 2 = val (S 0).limbs + val (S 1).limbs := by
  refine ⟨by decide +kernel, by decide +kernel, by decide +kernel, by decide +kernel⟩

/-- C40 fails: subtracting [1, MAX, 1] from [0, 0, 3] drops the borrow out of the second limb; the difference comes out too large by 2^128. -/
theorem add_lost_borrow_violated :
    let S := two ⟨[0, 0, 3], 32, true⟩ ⟨[1, MAX, 1], 32, true⟩
    Wf (S 0) ∧ Wf (S 1) ∧ view 2 (sub S generous 2 0 1) = some (⟨[MAX, 0, 2], 32, true⟩, .ok) ∧
      val [MAX, 0, 2] + val (S 1).limbs = val (S 0).limbs + W64 ^ 2 := by
  refine ⟨by decide +kernel, by decide +kernel, by decide +kernel, by decide +kernel⟩

/-- C40 fails: adding into the second operand when its full block of 32 limbs has to grow reads the block that was given back. -/
theorem add_alias_violated :
    let S := two ⟨List.replicate 32 1, 32, true⟩ ⟨List.replicate 32 1, 32, true⟩
    Wf (S 0) ∧ Wf (S 1) ∧ (view 1 (add S generous 1 0 1)).isNone ∧ (view 0 (add S generous 0 0 1)).isSome := by
  refine ⟨by decide +kernel, by decide +kernel, by decide +kernel, by decide +kernel⟩

/-- C40 fails for every negative number below `-vi`: adding `vi` with success leaves a number that is not negative. -/
theorem addi_violated (S : Store) (g : Grant) (d a vi : Nat) (ha : Wf (S a)) (hp : (S a).plus = false) (h : vi < val (S a).limbs)
    (S' : Store) (hs : addi S g d a vi = some (S', .ok)) : value (S a) + vi < 0 ∧ 0 ≤ value (S' d) := by
  constructor
  · unfold value; rw [hp]; simp only [Bool.false_eq_true, if_false]; omega
  · unfold addi at hs
    rw [hp, if_neg (by simp)] at hs
    have hc : cmpi (S a) vi = .lt := by unfold cmpi; rw [hp]; rfl
    rw [hc] at hs
    dsimp only at hs
    rcases hl : (S a).limbs with _ | ⟨x, t⟩
    · rw [hl] at h; simp [val] at h
    · rw [hl] at hs
      dsimp only at hs
      rcases mpiSeti_puts S g d (wsub vi x) 1 (Or.inl (Nat.le_refl _)) with ⟨cap, _, e⟩ | ⟨e, _⟩
      · rw [e] at hs
        unfold thenPlus at hs
        rw [if_pos rfl] at hs
        simp only [Option.some.injEq, Prod.mk.injEq, and_true] at hs
        rw [← hs, setPlus_self, store_self]
        unfold value
        simp only [if_true]
        omega
      · rw [e] at hs
        unfold thenPlus at hs
        rw [if_neg (by simp)] at hs
        simp at hs

example : view 1 (addi (two ⟨[7], 32, false⟩ init) generous 1 0 5) = some (⟨[W64 - 2], 32, true⟩, .ok) := by decide +kernel

/-- C40 fails: adding a word to a zero with a minus sign, and subtracting a positive word from zero, read a limb that is not there. -/
theorem addi_undefined (S : Store) (g : Grant) (d a vi : Nat) (hp : (S a).plus = false) (hl : (S a).limbs = []) : addi S g d a vi = none := by
  unfold addi
  have hc : cmpi (S a) vi = .lt := by unfold cmpi; rw [hp]; rfl
  rw [hp, if_neg (by simp), hc]
  dsimp only
  rw [hl]
theorem subi_undefined (S : Store) (g : Grant) (d a vi : Nat) (hp : (S a).plus = true) (hl : (S a).limbs = []) (hv : vi ≠ 0) :
    subi S g d a vi = none := by
  unfold subi
  have hc : mpiCmpi (S a) vi = .lt := by unfold mpiCmpi; rw [hl]; simp [hv]
  rw [hp, if_neg (by simp), hc]
  dsimp only
  rw [hl]

example : subi (fun _ => init) generous 0 0 1 = none := subi_undefined _ _ _ _ _ rfl rfl (by decide)

/-! ### C41: product -/

theorem sign_mul (p q : Bool) (x y : Nat) :
    (if (p == q) then ((x * y : Nat) : Int) else -((x * y : Nat) : Int)) = (if p then (x : Int) else -(x : Int)) * (if q then (y : Int) else -(y : Int)) := by
  rcases p <;> rcases q <;> simp [Int.neg_mul, Int.mul_neg]

/-- C41: the product with a word. -/
theorem muli_correct (S : Store) (g : Grant) (d a vi : Nat) (ha : Wf (S a)) (hv : vi < W64) :
    Yields S g d ((S a).limbs.length + 1) (some (muli S g d a vi)) (value (S a) * vi) := by
  obtain ⟨l, e2, e3, e4⟩ := mpiMuli_puts (d := d) g ha hv
  refine e2.yields e3 (Nat.le_refl _) _ (S a).plus (fun cap => store_plus _ _ _ _ _) _ ?_
  rw [e4]
  unfold value
  rcases (S a).plus <;> simp [Int.neg_mul]

/-- What the product needs: no limb 1 above the lowest in the shorter operand, or no limb 2^64 - 1 in the longer one. -/
def MulSafe (x y : List Nat) : Prop := (∀ i, 1 ≤ i → y.getD i 0 ≠ 1) ∨ ∀ w, w ∈ x → w ≠ W64 - 1

theorem mpiMul_puts {S : Store} {d a b : Nat} (g : Grant) (ha : Wf (S a)) (hb : Wf (S b)) (hd : Wf (S d)) (hl : (S b).limbs.length ≤ (S a).limbs.length)
    (hs : 2 ≤ (S b).limbs.length → (d ≠ a ∧ d ≠ b) ∧ MulSafe (S a).limbs (S b).limbs) :
    ∃ r l, mpiMul S g d a b = some r ∧ Puts S g d ((S a).limbs.length + (S b).limbs.length) l r ∧
      Good l ((S a).limbs.length + (S b).limbs.length) ∧ val l = val (S a).limbs * val (S b).limbs := by
  unfold mpiMul
  dsimp only
  by_cases c1 : (S a).limbs.length = 0
  · rw [if_pos c1]
    refine ⟨_, _, rfl, mpiSeti_puts S g d 0 _ (Or.inr rfl), good_seti (by decide) _ (Or.inr rfl), ?_⟩
    rw [val_seti, List.length_eq_zero_iff.1 c1]; simp [val]
  rw [if_neg c1]
  by_cases c2 : (S b).limbs.length = 0
  · rw [if_pos c2]
    refine ⟨_, _, rfl, mpiSeti_puts S g d 0 _ (Or.inr rfl), good_seti (by decide) _ (Or.inr rfl), ?_⟩
    rw [val_seti, List.length_eq_zero_iff.1 c2]; simp [val]
  rw [if_neg c2]
  by_cases c3 : (S b).limbs.length = 1
  · rw [if_pos c3, c3]
    obtain ⟨l, h1, h2, h3⟩ := mpiMuli_puts (d := d) g ha (head_lt hb.words)
    exact ⟨_, l, rfl, h1, h2, by rw [h3, val_single c3]⟩
  obtain ⟨⟨n1, n2⟩, hs⟩ := hs (by omega)
  rw [if_neg c3, if_neg (fun n => n1 n.1), if_neg (fun n => n2 n.1), if_neg n1, if_neg n2]
  obtain ⟨h1, h2, h3⟩ := mpaMul_ok (S a).limbs (S b).limbs ha.words hb.words (fun n => c2 (by rw [n]; rfl)) hs
    (fun i => (S d).limbs.getD i 0) (fun k => hd.words.getD k)
  have hg := good_strip h2 (Nat.le_of_eq h3)
  exact ⟨_, _, rfl, assign_puts hg (Nat.le_refl _), hg, by rw [(strip_facts _).1, h1]⟩

/-- C41: the product. Missing: a shorter operand with a limb 1 above the lowest together with a longer one that has a limb 2^64 - 1
(`mul_lost_carry_violated`), and a result that is an operand when both have several limbs (`mul_alias_violated`; for squaring in place see
`square_correct_partial`). -/
theorem mul_correct_partial (S : Store) (g : Grant) (d a b : Nat) (ha : Wf (S a)) (hb : Wf (S b)) (hd : Wf (S d))
    (hs : 2 ≤ (S (shorter S a b)).limbs.length → (d ≠ a ∧ d ≠ b) ∧ MulSafe (S (longer S a b)).limbs (S (shorter S a b)).limbs) :
    Yields S g d ((S a).limbs.length + (S b).limbs.length) (mul S g d a b) (value (S a) * value (S b)) := by
  have key : ∀ x y, Wf (S x) → Wf (S y) → (S y).limbs.length ≤ (S x).limbs.length →
      (2 ≤ (S y).limbs.length → (d ≠ x ∧ d ≠ y) ∧ MulSafe (S x).limbs (S y).limbs) →
      Yields S g d ((S x).limbs.length + (S y).limbs.length) (mulOrd S g d x y) (value (S x) * value (S y)) := by
    intro x y hx hy hl hs
    obtain ⟨r, l, e1, e2, e3, e4⟩ := mpiMul_puts g hx hy hd hl hs
    unfold mulOrd
    rw [e1, Option.map_some]
    refine e2.yields e3 (Nat.le_refl _) _ ((S x).plus == (S y).plus) (fun cap => by rw [store_plus, store_plus]) _ ?_
    rw [e4]
    exact sign_mul _ _ _ _
  unfold mul
  unfold longer shorter at hs
  by_cases c : (S a).limbs.length < (S b).limbs.length
  · rw [if_pos c, Nat.add_comm, Int.mul_comm]
    rw [if_pos c, if_pos c] at hs
    exact key b a hb ha (by omega) (fun h => ⟨⟨(hs h).1.2, (hs h).1.1⟩, (hs h).2⟩)
  · rw [if_neg c]
    rw [if_neg c, if_neg c] at hs
    exact key a b ha hb (by omega) hs

/-- C41 for squaring in place: if the local buffer is refused nothing changes; if the result can be stored it is the square. Missing: as
above, and the final copy when the allocator refuses it (`square_refused_violated`). -/
theorem square_correct_partial (S : Store) (g : Grant) (d : Nat) (hd : Wf (S d)) (h2 : 2 ≤ (S d).limbs.length) (hs : MulSafe (S d).limbs (S d).limbs) :
    (¬ (g.buf = true ∧ (S d).limbs.length * 2 ≤ 2 ^ 60) → mul S g d d d = some (S, .nomem)) ∧
    (g.buf = true → (S d).limbs.length * 2 ≤ 2 ^ 60 → (S d).limbs.length * 2 ≤ (S d).cap ∨ g.obj d = true →
      ∃ S', mul S g d d d = some (S', .ok) ∧ (∀ i, i ≠ d → S' i = S i) ∧ Wf (S' d) ∧ value (S' d) = value (S d) * value (S d)) := by
  have e : mul S g d d d = some (thenPlus (mpiMulBuf S g d (S d).limbs) d (fun s => (s d).plus == (s d).plus)) := by
    unfold mul mulOrd mpiMul
    dsimp only
    rw [if_neg (by omega), if_neg (by omega), if_neg (by omega), if_neg (by omega), if_pos ⟨rfl, rfl⟩, Option.map_some]
  rw [e]
  constructor
  · intro h
    unfold mpiMulBuf
    rw [if_neg h]
    rfl
  · intro h3 h4 h5
    obtain ⟨k1, k2, k3⟩ := mpaMul_ok (S d).limbs (S d).limbs hd.words hd.words (fun n => by rw [n] at h2; simp at h2) hs (fun _ => 0) (fun _ => by decide)
    have hf := strip_facts (mpaMul (.own (S d).limbs) (.own (S d).limbs) (S d).limbs.length (S d).limbs.length (fun _ => 0))
    unfold mpiMulBuf mpiCopy
    rw [if_pos ⟨h3, h4⟩, strip_id hf.2.1]
    rcases assign_cases S g d _ (strip (mpaMul (.own (S d).limbs) (.own (S d).limbs) (S d).limbs.length (S d).limbs.length (fun _ => 0))) with ⟨cap, hc, he⟩ | ⟨_, n1, n2⟩
    · rw [he]
      unfold thenPlus
      rw [if_pos rfl]
      dsimp only
      refine ⟨_, rfl, fun i hi => by rw [setPlus_ne hi, store_ne hi], ?_, ?_⟩
      · rw [setPlus_self, store_self]
        exact ⟨hf.2.2.2 k2, hf.2.1, hc⟩
      · rw [setPlus_self, store_self]
        unfold value
        simp only [beq_self_eq_true, if_true]
        rw [hf.1, k1]
        rcases (S d).plus <;> simp [Int.neg_mul, Int.mul_neg]
    · rcases h5 with h5 | h5
      · exact absurd (by omega) n1
      · exact absurd ⟨h5, by omega⟩ n2

example : view 2 (mul (two ⟨[MAX, MAX], 32, true⟩ ⟨[MAX, MAX], 32, false⟩) generous 2 0 1) = some (⟨[1, 0, MAX - 1, MAX], 32, false⟩, .ok) := by
  decide +kernel
example : MulSafe [MAX, MAX] [MAX, MAX] := by
  left
  intro i _ h
  rcases i with _ | _ | i
  · omega
  · exact absurd h (by decide +kernel)
  · simp at h

/-- C41 fails: the row of a limb 1 is added with a lost carry. -/
theorem mul_lost_carry_violated :
    let S := two ⟨[MAX, MAX, 1], 32, true⟩ ⟨[2, 1], 32, true⟩
    Wf (S 0) ∧ Wf (S 1) ∧ ∃ l, view 2 (mul S generous 2 0 1) = some (⟨l, 32, true⟩, .ok) ∧ val l ≠ val (S 0).limbs * val (S 1).limbs := by
  refine ⟨by decide +kernel, by decide +kernel, ?_⟩
  exact ⟨_, rfl, by decide +kernel⟩

/-- C41 fails: multiplying into one of two operands of two limbs overwrites limbs that are still to be read. -/
theorem mul_alias_violated :
    let S := two ⟨[2, 2], 32, true⟩ ⟨[3, 5], 32, true⟩
    Wf (S 0) ∧ Wf (S 1) ∧ ∃ l, view 0 (mul S generous 0 0 1) = some (⟨l, 32, true⟩, .ok) ∧ val l ≠ val (S 0).limbs * val (S 1).limbs := by
  refine ⟨by decide +kernel, by decide +kernel, ?_⟩
  exact ⟨_, rfl, by decide +kernel⟩

/-- C41 fails: squaring in place reports success although the block for the result was refused and the operand is unchanged. -/
theorem square_refused_violated :
    let S := two ⟨List.replicate 17 2, 32, true⟩ init
    Wf (S 0) ∧ view 0 (mul S ⟨fun _ => false, true⟩ 0 0 0) = some (⟨List.replicate 17 2, 32, true⟩, .ok) := by
  refine ⟨by decide +kernel, by decide +kernel⟩

end Bfdev.Mpi

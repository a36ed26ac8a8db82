import Verif.Sort.Model
/-! Helper lemmas for the array sort. -/
set_option linter.unusedSimpArgs false
namespace Bfdev.Sort

/-! ### Byte offsets -/

theorem and_mul_pow (t a b : Nat) : (2 ^ t * a) &&& (2 ^ t * b) = 2 ^ t * (a &&& b) := by
  apply Nat.eq_of_testBit_eq
  intro i
  simp only [Nat.testBit_and, Nat.testBit_two_pow_mul]
  by_cases h : t ≤ i <;> simp [h]

theorem odd_and_neg (k q : Nat) (h : 2 * q + 1 < 2 ^ k) : (2 * q + 1) &&& (2 ^ k - (2 * q + 1)) = 1 := by
  apply Nat.eq_of_testBit_eq
  intro i
  have h1 : 2 ^ k - (2 * q + 1) = 2 ^ k - ((2 * q) + 1) := rfl
  rw [Nat.testBit_and, h1, Nat.testBit_two_pow_sub_succ (by omega)]
  have hk : 0 < k := by
    cases k with
    | zero => omega
    | succ k => omega
  cases i with
  | zero => simp [Nat.testBit_zero, hk]
  | succ i =>
    rw [Nat.testBit_succ, Nat.testBit_succ, Nat.testBit_succ]
    have e1 : (2 * q + 1) / 2 = q := by omega
    have e2 : 2 * q / 2 = q := by omega
    rw [e1, e2]
    cases q.testBit i <;> simp

theorem exists_odd (c : Nat) (h : 0 < c) : ∃ t q, c = 2 ^ t * (2 * q + 1) := by
  induction c using Nat.strongRecOn with
  | _ c ih =>
    rcases Nat.mod_two_eq_zero_or_one c with h0 | h1
    · obtain ⟨t, q, e⟩ := ih (c / 2) (by omega) (by omega)
      refine ⟨t + 1, q, ?_⟩
      rw [Nat.pow_succ, Nat.mul_right_comm, ← e]; omega
    · exact ⟨0, c / 2, by omega⟩

theorem wneg_eq {x : Nat} (h0 : 0 < x) (h : x < W64) : wneg x = W64 - x := by
  unfold wneg
  rw [Nat.mod_eq_of_lt h, Nat.mod_eq_of_lt (by omega)]

theorem wsub_eq {a b : Nat} (h : b ≤ a) (ha : a < W64) : wsub a b = a - b := by
  unfold wsub
  have : a + W64 - b = (a - b) + W64 := by omega
  rw [this, Nat.add_mod_right, Nat.mod_eq_of_lt (by omega)]

/-- The lowest set bit of the element size, as computed by the code, src/sort.c:43. -/
theorem lsbit_eq {c t q : Nat} (hc : c = 2 ^ t * (2 * q + 1)) (h : c < W64) (h0 : 0 < c) : c &&& wneg c = 2 ^ t := by
  have ht : t < 64 := by
    rcases Nat.lt_or_ge t 64 with h' | h'
    · exact h'
    · have : 2 ^ 64 ≤ 2 ^ t := Nat.pow_le_pow_right (by omega) h'
      have : 2 ^ t * 1 ≤ 2 ^ t * (2 * q + 1) := Nat.mul_le_mul_left _ (by omega)
      simp only [W64] at h; omega
  have e64 : W64 = 2 ^ t * 2 ^ (64 - t) := by
    rw [← Nat.pow_add, show t + (64 - t) = 64 by omega]
  have hlt : 2 * q + 1 < 2 ^ (64 - t) := by
    rw [e64, hc] at h
    exact Nat.lt_of_mul_lt_mul_left h
  rw [wneg_eq h0 h, e64, hc, ← Nat.mul_sub, and_mul_pow, odd_and_neg _ _ hlt, Nat.mul_one]

theorem parent_eq {c i : Nat} (h0 : 0 < c) (hl : (c &&& wneg c) < 2 ^ 32) (hi : 0 < i) (hsz : i * c < 2 ^ 63) :
    parent c (c &&& wneg c) (i * c) = (i - 1) / 2 * c := by
  have hcw : c < W64 := by
    have : 1 * c ≤ i * c := Nat.mul_le_mul_right _ hi
    simp only [W64]; omega
  obtain ⟨t, q, hc⟩ := exists_odd c h0
  have hls := lsbit_eq hc hcw h0
  have ht : t < 64 := by
    rcases Nat.lt_or_ge t 64 with h' | h'
    · exact h'
    · have : 2 ^ 64 ≤ 2 ^ t := Nat.pow_le_pow_right (by omega) h'
      omega
  unfold parent
  simp only [Nat.mod_eq_of_lt hl]
  rw [hls]
  have e1 : wsub (i * c) c = (i - 1) * c := by
    rw [wsub_eq (Nat.le_mul_of_pos_left _ hi) (by simp only [W64]; omega), Nat.sub_mul, Nat.one_mul]
  have hle : (i - 1) * c ≤ i * c := Nat.mul_le_mul_right _ (by omega)
  rw [e1]
  have e2 : (i - 1) * c &&& 2 ^ t = 2 ^ t * ((i - 1) % 2) := by
    have h1 : (i - 1) * c = 2 ^ t * ((i - 1) * (2 * q + 1)) := by rw [hc]; ac_rfl
    have h2 : 2 ^ t = 2 ^ t * 1 := by omega
    rw [h1]
    conv => lhs; rhs; rw [h2]
    rw [and_mul_pow]
    congr 1
    rw [Nat.and_one_is_mod, Nat.mul_mod]
    have : (2 * q + 1) % 2 = 1 := by omega
    rw [this, Nat.mul_one, Nat.mod_mod]
  rw [e2]
  have hmask : c &&& wneg (2 ^ t) = c := by
    have hp : 2 ^ t < W64 := by
      have : 2 ^ t < 2 ^ 64 := Nat.pow_lt_pow_right (by omega) ht
      simpa [W64] using this
    rw [wneg_eq (Nat.two_pow_pos t) hp]
    have e64 : W64 = 2 ^ t * 2 ^ (64 - t) := by rw [← Nat.pow_add, show t + (64 - t) = 64 by omega]
    have hlt : 2 * q + 1 < 2 ^ (64 - t) := by
      rw [e64, hc] at hcw
      exact Nat.lt_of_mul_lt_mul_left hcw
    have : 2 ^ t * 2 ^ (64 - t) - 2 ^ t = 2 ^ t * (2 ^ (64 - t) - 1) := by rw [Nat.mul_sub, Nat.mul_one]
    rw [e64, this, hc, and_mul_pow, Nat.and_two_pow_sub_one_eq_mod, Nat.mod_eq_of_lt hlt]
  rcases Nat.mod_two_eq_zero_or_one (i - 1) with h | h
  · rw [h, Nat.mul_zero]
    have : wneg 0 = 0 := by decide
    rw [this, Nat.and_zero]
    have : wsub ((i - 1) * c) 0 = (i - 1) * c := by rw [wsub_eq (by omega) (by simp only [W64]; omega)]; omega
    rw [this, Nat.shiftRight_eq_div_pow, Nat.pow_one]
    have e : i - 1 = 2 * ((i - 1) / 2) := by omega
    conv => lhs; rw [e, Nat.mul_assoc]
    rw [Nat.mul_div_cancel_left _ (by omega)]
  · rw [h, Nat.mul_one, hmask]
    have : wsub ((i - 1) * c) c = (i - 2) * c := by
      rw [wsub_eq (Nat.le_mul_of_pos_left _ (by omega)) (by simp only [W64]; omega)]
      have : i - 2 = (i - 1) - 1 := by omega
      rw [this, Nat.sub_mul (i - 1), Nat.one_mul]
    rw [this, Nat.shiftRight_eq_div_pow, Nat.pow_one]
    have e : i - 2 = 2 * ((i - 1) / 2) := by omega
    conv => lhs; rw [e, Nat.mul_assoc]
    rw [Nat.mul_div_cancel_left _ (by omega)]

theorem idx_eq {c len i : Nat} (h0 : 0 < c) (h : i < len) : idx c len (i * c) = some i := by
  unfold idx
  rw [Nat.mul_mod_left, Nat.mul_div_cancel _ h0, if_pos ⟨rfl, h⟩]

theorem get_eq {α : Type} {c i : Nat} {arr : List α} (d : α) (h0 : 0 < c) (h : i < arr.length) :
    get c arr (i * c) = some (arr.getD i d) := by
  unfold get
  rw [idx_eq h0 h]
  simp [h]

theorem swap_eq {α : Type} {c i j : Nat} {arr : List α} (h0 : 0 < c) (hi : i < arr.length) (hj : j < arr.length) :
    swap c arr (i * c) (j * c) = some ((arr.set i arr[j]).set j arr[i]) := by
  unfold swap
  rw [idx_eq h0 hi, idx_eq h0 hj]
  simp [hi, hj]

/-- Values of an array after exchanging two elements. -/
theorem getD_swap {α : Type} (d : α) (arr : List α) {i j : Nat} (hi : i < arr.length) (hj : j < arr.length) (p : Nat) :
    ((arr.set i arr[j]).set j arr[i]).getD p d =
      if p = j then arr.getD i d else if p = i then arr.getD j d else arr.getD p d := by
  simp only [List.getD_eq_getElem?_getD, List.getElem?_set, List.length_set]
  by_cases h1 : p = j
  · subst h1; simp [hj, hi]
  · by_cases h2 : p = i
    · subst h2; simp [h1, Ne.symm h1, hi, hj]
    · simp [h1, h2, Ne.symm h1, Ne.symm h2]

theorem swap_perm {α : Type} (arr : List α) {i j : Nat} (hi : i < arr.length) (hj : j < arr.length) :
    ((arr.set i arr[j]).set j arr[i]).Perm arr := List.set_set_perm hi hj

/-! ### Heaps -/

/-- What the code assumes of a comparator, through the only test it makes. -/
structure Ord {α : Type} (cmp : α → α → Int) : Prop where
  total : ∀ x y, ¬ 0 ≤ cmp x y → 0 ≤ cmp y x
  trans : ∀ x y z, 0 ≤ cmp x y → 0 ≤ cmp y z → 0 ≤ cmp x z

section
variable {α : Type} (cmp : α → α → Int) (a : Nat → α) (r n : Nat)

/-- Every node from `r` on is at least as large as its children. -/
def HeapFrom : Prop := ∀ p c, r ≤ p → c < n → (c = 2 * p + 1 ∨ c = 2 * p + 2) → 0 ≤ cmp (a p) (a c)

/-- The child followed by the descent. -/
def mc (p : Nat) : Nat :=
  if 2 * p + 2 < n then (if 0 ≤ cmp (a (2 * p + 1)) (a (2 * p + 2)) then 2 * p + 1 else 2 * p + 2) else 2 * p + 1

inductive OnPath : Nat → Prop
  | root : OnPath r
  | child {p} : OnPath p → 2 * p + 1 < n → OnPath (mc cmp a n p)

end

section
variable {α : Type} {cmp : α → α → Int} {a : Nat → α} {r n : Nat}

theorem mc_cases (p : Nat) (h : 2 * p + 1 < n) :
    mc cmp a n p < n ∧ (mc cmp a n p = 2 * p + 1 ∨ mc cmp a n p = 2 * p + 2) := by
  unfold mc; split
  · split <;> omega
  · omega

theorem mc_parent (p : Nat) : (mc cmp a n p - 1) / 2 = p := by
  unfold mc; split
  · split <;> omega
  · omega

theorem mc_ge (ho : Ord cmp) (p s : Nat) (hs : s < n) (hc : s = 2 * p + 1 ∨ s = 2 * p + 2) (hne : s ≠ mc cmp a n p) :
    0 ≤ cmp (a (mc cmp a n p)) (a s) := by
  unfold mc at *
  split at hne
  · next h2 =>
    rw [if_pos h2]
    split at hne
    · next h3 => rw [if_pos h3]; rcases hc with rfl | rfl
                 · exact absurd rfl hne
                 · exact h3
    · next h3 => rw [if_neg h3]; rcases hc with rfl | rfl
                 · exact ho.total _ _ h3
                 · exact absurd rfl hne
  · omega

theorem OnPath.ge {q : Nat} (h : OnPath cmp a r n q) : r ≤ q := by
  induction h with
  | root => omega
  | @child p _ h2 ih => have := (mc_cases (cmp := cmp) (a := a) p h2).2; omega

theorem OnPath.up {q : Nat} (h : OnPath cmp a r n q) (hq : q ≠ r) :
    OnPath cmp a r n ((q - 1) / 2) ∧ q = mc cmp a n ((q - 1) / 2) ∧ 2 * ((q - 1) / 2) + 1 < n ∧ r ≤ (q - 1) / 2 ∧ 0 < q := by
  cases h with
  | root => exact absurd rfl hq
  | child hp h2 =>
    rename_i p
    rw [mc_parent]
    have := (mc_cases (cmp := cmp) (a := a) p h2).2
    exact ⟨hp, rfl, h2, hp.ge, by omega⟩

theorem OnPath.lt {q : Nat} (h : OnPath cmp a r n q) (hr : r < n) : q < n := by
  cases h with
  | root => exact hr
  | child _ h2 => exact (mc_cases _ h2).1

end

/-! ### The three loops of a sift -/

section
variable {α : Type} {cmp : α → α → Int} {arr : List α} {d : α} {r n c : Nat}

theorem descend_spec (h0 : 0 < c) (hn : n ≤ arr.length) (hsz : arr.length * c < 2 ^ 63) (fuel q : Nat)
    (hq : OnPath cmp (arr.getD · d) r n q) (hlt : q < n) (hf : n - q < fuel) :
    ∃ q', descend cmp c (n * c) arr fuel (q * c) = some (q' * c, (2 * q' + 1) * c, (2 * q' + 2) * c) ∧
      OnPath cmp (arr.getD · d) r n q' ∧ q' < n ∧ n ≤ 2 * q' + 2 := by
  induction fuel generalizing q with
  | zero => omega
  | succ fuel ih =>
    have hnc : n * c ≤ arr.length * c := Nat.mul_le_mul_right _ hn
    have hqc : (q + 1) * c ≤ n * c := Nat.mul_le_mul_right _ hlt
    rw [Nat.add_mul, Nat.one_mul] at hqc
    have e3 : w64 (2 * (q * c) + c) = (2 * q + 1) * c := by
      rw [Nat.add_mul, Nat.one_mul, Nat.mul_assoc]
      unfold w64; rw [Nat.mod_eq_of_lt (by simp only [W64]; omega)]
    have e4 : w64 ((2 * q + 1) * c + c) = (2 * q + 2) * c := by
      rw [show (2 * q + 2) * c = (2 * q + 1) * c + c by rw [← Nat.succ_mul]]
      rw [Nat.add_mul, Nat.one_mul, Nat.mul_assoc]
      unfold w64; rw [Nat.mod_eq_of_lt (by simp only [W64]; omega)]
    unfold descend
    simp only [e3, e4]
    by_cases h : 2 * q + 2 < n
    · rw [if_pos (Nat.mul_lt_mul_of_pos_right h h0)]
      rw [get_eq d h0 (show 2 * q + 1 < arr.length by omega), get_eq d h0 (show 2 * q + 2 < arr.length by omega)]
      simp only [bind, Option.bind]
      have e : (if cmp (arr.getD (2 * q + 1) d) (arr.getD (2 * q + 2) d) ≥ 0 then (2 * q + 1) * c else (2 * q + 2) * c) =
          mc cmp (arr.getD · d) n q * c := by
        unfold mc; rw [if_pos h]; simp only [ge_iff_le]; split <;> rfl
      rw [e]
      have hm := mc_cases (cmp := cmp) (a := (arr.getD · d)) (n := n) q (by omega)
      exact ih _ (.child hq (by omega)) hm.1 (by omega)
    · rw [if_neg (Nat.not_lt.2 (Nat.mul_le_mul_right _ (by omega)))]
      exact ⟨q, rfl, hq, hlt, by omega⟩

/-- All children of `j` are at most the element being sifted. -/
def Below (cmp : α → α → Int) (a : Nat → α) (r n j : Nat) : Prop :=
  ∀ s, s < n → (s = 2 * j + 1 ∨ s = 2 * j + 2) → 0 ≤ cmp (a r) (a s)

theorem climb_spec (ho : Ord cmp) (h0 : 0 < c) (hl : (c &&& wneg c) < 2 ^ 32) (hn : n ≤ arr.length)
    (hsz : arr.length * c < 2 ^ 63) (hr : r < n) (fuel j : Nat)
    (hj : OnPath cmp (arr.getD · d) r n j) (hb : Below cmp (arr.getD · d) r n j) (hf : j < fuel) :
    ∃ j', climb cmp c (c &&& wneg c) arr (r * c) fuel (j * c) = some (j' * c) ∧
      OnPath cmp (arr.getD · d) r n j' ∧ Below cmp (arr.getD · d) r n j' ∧
      (j' = r ∨ 0 ≤ cmp (arr.getD j' d) (arr.getD r d)) := by
  induction fuel generalizing j with
  | zero => omega
  | succ fuel ih =>
    have hlt := hj.lt hr
    unfold climb
    by_cases h : j = r
    · subst h
      rw [if_neg (by simp)]
      exact ⟨j, rfl, hj, hb, Or.inl rfl⟩
    · have hne : r * c ≠ j * c := fun e => h (Nat.eq_of_mul_eq_mul_right h0 e).symm
      rw [if_pos hne, get_eq d h0 (show r < arr.length by omega), get_eq d h0 (show j < arr.length by omega)]
      simp only [bind, Option.bind]
      obtain ⟨u1, u2, u3, u4, u5⟩ := hj.up h
      split
      · next hge =>
        have hjc : j * c ≤ arr.length * c := Nat.mul_le_mul_right _ (by omega)
        rw [parent_eq h0 hl u5 (by omega)]
        refine ih _ u1 (fun s hs hc => ?_) (by omega)
        by_cases hsj : s = j
        · subst hsj; exact hge
        · have := mc_ge ho (a := (arr.getD · d)) ((j - 1) / 2) s hs hc (by omega)
          rw [← u2] at this
          exact ho.trans _ _ _ hge this
      · next hge => exact ⟨j, rfl, hj, hb, Or.inr (ho.total _ _ hge)⟩

/-- State of the rotation when it has reached `q`: `b` is the current array, `a` the one it started from. -/
structure Rot (cmp : α → α → Int) (a b : Nat → α) (r n j q : Nat) : Prop where
  q_path : OnPath cmp a r n q
  j_path : OnPath cmp a r n j
  q_le : q ≤ j
  hj : b j = a q
  hup : q ≠ j → b ((j - 1) / 2) = a j
  hq : q ≠ j → b q = a (mc cmp a n q) ∧ 2 * q + 1 < n
  hsame : ∀ p, ¬ OnPath cmp a r n p ∨ p < q ∨ j < p → b p = a p
  hedge : ∀ p s, r ≤ p → (p = r → q = r) → s < n → (s = 2 * p + 1 ∨ s = 2 * p + 2) → p ≠ j → s ≠ j → 0 ≤ cmp (b p) (b s)

theorem rot_start (hh : HeapFrom cmp a (r + 1) n) (j : Nat) (hj : OnPath cmp a r n j) : Rot cmp a a r n j j := by
  refine ⟨hj, hj, Nat.le_refl _, rfl, fun h => absurd rfl h, fun h => absurd rfl h, fun _ _ => rfl, fun p s hp hpr hs hc h1 h2 => ?_⟩
  by_cases h : p = r
  · have := hpr h; omega
  · exact hh p s (by omega) hs hc

theorem rot_step (ho : Ord cmp) {a b : Nat → α} (hh : HeapFrom cmp a (r + 1) n) {j q : Nat} (_hrj : r < n) (hjn : j < n)
    (h : Rot cmp a b r n j q) (hq : q ≠ r) :
    Rot cmp a (fun p => if p = j then b ((q - 1) / 2) else if p = (q - 1) / 2 then b j else b p) r n j ((q - 1) / 2) := by
  obtain ⟨u1, u2, u3, u4, u5⟩ := h.q_path.up hq
  have hqle := h.q_le
  have hpj : (q - 1) / 2 ≠ j := by omega
  have hbp : b ((q - 1) / 2) = a ((q - 1) / 2) := h.hsame _ (Or.inr (Or.inl (by omega)))
  have hqc : q = 2 * ((q - 1) / 2) + 1 ∨ q = 2 * ((q - 1) / 2) + 2 := by omega
  refine ⟨u1, h.j_path, by omega, by simp [hbp], fun _ => ?_, fun _ => ?_, fun p hp => ?_, fun p s hp hpr hs hc h1 h2 => ?_⟩
  · by_cases hqj : q = j
    · subst hqj; rw [if_neg hpj, if_pos rfl, h.hj]
    · have := h.hup hqj
      have hne : (j - 1) / 2 ≠ (q - 1) / 2 := fun e => by
        obtain ⟨_, v2, _⟩ := h.j_path.up (by have := h.q_path.ge; omega)
        rw [e, ← u2] at v2
        exact hqj v2.symm
      rw [if_neg (by omega), if_neg hne]; exact this
  · rw [if_neg hpj, if_pos rfl, h.hj, ← u2]
    exact ⟨rfl, u3⟩
  · have : p ≠ j := by
      rintro rfl
      rcases hp with hp | hp | hp
      · exact hp h.j_path
      · omega
      · omega
    rw [if_neg this, if_neg ?_]
    · exact h.hsame p (by
        rcases hp with hp | hp | hp
        · exact Or.inl hp
        · exact Or.inr (Or.inl (by omega))
        · exact Or.inr (Or.inr hp))
    · rintro rfl
      rcases hp with hp | hp | hp
      · exact hp u1
      · omega
      · omega
  · rw [if_neg h1, if_neg h2]
    by_cases hpp : p = (q - 1) / 2
    · rw [if_pos hpp, h.hj, if_neg (by omega)]
      by_cases hsq : s = q
      · subst hsq
        obtain ⟨e1, e2⟩ := h.hq h2
        rw [e1]
        have := mc_cases (cmp := cmp) (a := a) s e2
        have hrs := h.q_path.ge
        exact hh s _ (by omega) this.1 this.2
      · have hns : ¬ OnPath cmp a r n s := fun hsp => by
          have hsr : s ≠ r := by omega
          obtain ⟨_, v2, _⟩ := hsp.up hsr
          rw [show (s - 1) / 2 = (q - 1) / 2 by omega, ← u2] at v2
          exact hsq v2
        rw [h.hsame s (Or.inl hns)]
        have := mc_ge ho (a := a) ((q - 1) / 2) s hs (by omega) (by rw [← u2]; exact hsq)
        rw [← u2] at this
        exact this
    · rw [if_neg hpp]
      by_cases hsp : s = (q - 1) / 2
      · rw [if_pos hsp, h.hj, h.hsame p (Or.inr (Or.inl (by omega)))]
        have hpr' : p ≠ r := fun e => by have := hpr e; omega
        have g1 := hh p s (by omega) hs hc
        rw [hsp] at g1
        have g2 := hh ((q - 1) / 2) q (by omega) (by omega) hqc
        exact ho.trans _ _ _ g1 g2
      · rw [if_neg hsp]
        refine h.hedge p s hp (fun e => ?_) hs hc h1 h2
        have := hpr e
        omega

theorem rotate_spec (ho : Ord cmp) (h0 : 0 < c) (hl : (c &&& wneg c) < 2 ^ 32) (hn : n ≤ arr.length)
    (hsz : arr.length * c < 2 ^ 63) (hr : r < n) {j : Nat} (hjn : j < n) (hh : HeapFrom cmp (arr.getD · d) (r + 1) n)
    (fuel q : Nat) (b : List α) (hlen : b.length = arr.length) (hR : Rot cmp (arr.getD · d) (b.getD · d) r n j q) (hf : q < fuel) :
    ∃ b', rotate c (c &&& wneg c) (r * c) (j * c) fuel (q * c) b = some b' ∧ b'.Perm b ∧
      Rot cmp (arr.getD · d) (b'.getD · d) r n j r := by
  induction fuel generalizing q b with
  | zero => omega
  | succ fuel ih =>
    unfold rotate
    by_cases h : q = r
    · subst h
      rw [if_neg (by simp)]
      exact ⟨b, rfl, .refl _, hR⟩
    · rw [if_pos (fun e => h (Nat.eq_of_mul_eq_mul_right h0 e).symm)]
      obtain ⟨u1, u2, u3, u4, u5⟩ := hR.q_path.up h
      have hq := hR.q_le
      have hqc : q * c ≤ arr.length * c := Nat.mul_le_mul_right _ (by omega)
      have hp' : (q - 1) / 2 < b.length := by omega
      have hj' : j < b.length := by omega
      rw [parent_eq h0 hl u5 (by omega)]
      simp only [swap_eq h0 hp' hj', bind, Option.bind]
      have hst := rot_step ho hh hr hjn hR h
      have e : (fun p => if p = j then b.getD ((q - 1) / 2) d else if p = (q - 1) / 2 then b.getD j d else b.getD p d) =
          (((b.set ((q - 1) / 2) b[j]).set j b[(q - 1) / 2]).getD · d) := by
        funext p; exact (getD_swap d b hp' hj' p).symm
      rw [e] at hst
      obtain ⟨b', h1, h2, h3⟩ := ih _ _ (by simp [hlen]) hst (by omega)
      exact ⟨b', h1, h2.trans (swap_perm b hp' hj'), h3⟩

/-- A finished rotation leaves a heap. -/
theorem rot_finish {a b : Nat → α} {j : Nat} (h : Rot cmp a b r n j r) (hjr : r ≤ j)
    (hb : Below cmp a r n j) (hup : j = r ∨ 0 ≤ cmp (a j) (a r)) : HeapFrom cmp b r n := by
  intro p s hp hs hc
  by_cases h1 : p = j
  · subst h1
    rw [h.hj, h.hsame s (Or.inr (Or.inr (by omega)))]
    exact hb s hs hc
  · by_cases h2 : s = j
    · subst h2
      have hp' : p = (s - 1) / 2 := by omega
      rw [h.hj, hp', h.hup (by omega)]
      rcases hup with hup | hup
      · omega
      · exact hup
    · exact h.hedge p s hp (fun _ => rfl) hs hc h1 h2

/-- One sift turns a heap below `r` into a heap from `r` on, permutes the elements and leaves those from `n` on alone. -/
theorem sift_spec (ho : Ord cmp) (h0 : 0 < c) (hl : (c &&& wneg c) < 2 ^ 32) (hn : n ≤ arr.length)
    (hsz : arr.length * c < 2 ^ 63) (hr : r < n) (hh : HeapFrom cmp (arr.getD · d) (r + 1) n) :
    ∃ b, sift cmp c (c &&& wneg c) (n * c) (r * c) arr = some b ∧ b.Perm arr ∧ HeapFrom cmp (b.getD · d) r n ∧
      ∀ p, n ≤ p → b.getD p d = arr.getD p d := by
  obtain ⟨q', d1, d2, d3, d4⟩ := descend_spec (cmp := cmp) (d := d) (r := r) h0 hn hsz (arr.length + 1) r .root hr (by omega)
  have hleaf : ∃ j0, (if (2 * q' + 2) * c = n * c then (2 * q' + 1) * c else q' * c) = j0 * c ∧
      OnPath cmp (arr.getD · d) r n j0 ∧ n ≤ 2 * j0 + 1 ∧ j0 < n := by
    by_cases e : 2 * q' + 2 = n
    · rw [if_pos (by rw [e])]
      refine ⟨2 * q' + 1, rfl, ?_, by omega, by omega⟩
      have : mc cmp (arr.getD · d) n q' = 2 * q' + 1 := by unfold mc; rw [if_neg (by omega)]
      rw [← this]
      exact .child d2 (by omega)
    · rw [if_neg (fun h => e (Nat.eq_of_mul_eq_mul_right h0 h))]
      exact ⟨q', rfl, d2, by omega, d3⟩
  obtain ⟨j0, l1, l2, l3, l4⟩ := hleaf
  obtain ⟨j, c1, c2, c3, c4⟩ := climb_spec ho h0 hl hn hsz hr (arr.length + 1) j0 l2 (fun s hs hc => by omega) (by omega)
  have hjn := c2.lt hr
  obtain ⟨b, r1, r2, r3⟩ := rotate_spec ho h0 hl hn hsz hr hjn hh (arr.length + 1) j arr rfl (rot_start hh j c2) (by omega)
  refine ⟨b, ?_, r2, rot_finish r3 c2.ge c3 c4, fun p hp => r3.hsame p (Or.inr (Or.inr (by omega)))⟩
  unfold sift
  simp only [d1, bind, Option.bind, l1, c1, r1]

/-- The root of a heap is its largest element. -/
theorem heap_root (ho : Ord cmp) {a : Nat → α} (h : HeapFrom cmp a 0 n) (p : Nat) (hp : p < n) : p = 0 ∨ 0 ≤ cmp (a 0) (a p) := by
  induction p using Nat.strongRecOn with
  | _ p ih =>
    by_cases h0 : p = 0
    · exact Or.inl h0
    · right
      have he := h ((p - 1) / 2) p (by omega) hp (by omega)
      rcases ih ((p - 1) / 2) (by omega) (by omega) with e | e
      · rw [e] at he; exact he
      · exact ho.trans _ _ _ e he

/-- Phase two: `[0, n)` is a heap, `[n, len)` holds the largest elements in order. -/
structure Phase2 (cmp : α → α → Int) (a : Nat → α) (n len : Nat) : Prop where
  heap : HeapFrom cmp a 0 n
  sorted : ∀ i j, n ≤ i → i < j → j < len → 0 ≤ cmp (a j) (a i)
  above : ∀ i j, i < n → n ≤ j → j < len → 0 ≤ cmp (a j) (a i)

theorem mem_of_getD {b : List α} {i : Nat} (h : i < b.length) (d : α) : b.getD i d ∈ b := by
  simp [List.getD_eq_getElem?_getD, h]

theorem getD_of_mem_take {b : List α} {m : Nat} {x : α} (h : x ∈ b.take m) (d : α) : ∃ i, i < m ∧ i < b.length ∧ b.getD i d = x := by
  obtain ⟨i, hi, e⟩ := List.mem_iff_getElem.1 h
  simp at hi e
  exact ⟨i, by omega, by omega, by simp [List.getD_eq_getElem?_getD, show i < b.length by omega, e]⟩

/-- The first `m` elements are permuted when the others stay. -/
theorem prefix_perm {b arr : List α} {m : Nat} (d : α) (hp : b.Perm arr) (hs : ∀ p, m ≤ p → b.getD p d = arr.getD p d) :
    (b.take m).Perm (arr.take m) := by
  have hl := hp.length_eq
  have hd : b.drop m = arr.drop m := by
    apply List.ext_getElem (by simp [hl])
    intro i h1 h2
    simp at h1 h2
    have := hs (m + i) (by omega)
    simp only [List.getElem_drop]
    simpa [List.getD_eq_getElem?_getD, show m + i < b.length by omega, show m + i < arr.length by omega] using this
  have h := hp
  rw [← List.take_append_drop m b, ← List.take_append_drop m arr, hd] at h
  exact (List.perm_append_right_iff _).1 h

theorem mainLoop_phase2 (ho : Ord cmp) (h0 : 0 < c) (hl : (c &&& wneg c) < 2 ^ 32) (fuel n : Nat) (arr : List α) (d : α)
    (hsz : arr.length * c < 2 ^ 63) (hn : n ≤ arr.length) (hn0 : 0 < n) (hP : Phase2 cmp (arr.getD · d) n arr.length) (hf : n ≤ fuel) :
    ∃ b, mainLoop cmp c (c &&& wneg c) fuel 0 (n * c) arr = some b ∧ b.Perm arr ∧
      ∀ i j, i < j → j < b.length → 0 ≤ cmp (b.getD j d) (b.getD i d) := by
  induction fuel generalizing n arr with
  | zero => omega
  | succ fuel ih =>
    have hnc : n * c ≤ arr.length * c := Nat.mul_le_mul_right _ hn
    have e1 : wsub (n * c) c = (n - 1) * c := by
      rw [wsub_eq (Nat.le_mul_of_pos_left _ hn0) (by simp only [W64]; omega), Nat.sub_mul, Nat.one_mul]
    unfold mainLoop
    rw [if_neg (by simp)]
    simp only [e1]
    by_cases h : n = 1
    · subst h
      rw [if_neg (by simp)]
      refine ⟨arr, rfl, .refl _, fun i j hij hj => ?_⟩
      by_cases hi : i = 0
      · subst hi; exact hP.above 0 j (by omega) (by omega) hj
      · exact hP.sorted i j (by omega) hij hj
    · rw [if_pos (Nat.ne_of_gt (Nat.mul_pos (by omega) h0))]
      have hi' : 0 < arr.length := by omega
      have hj' : n - 1 < arr.length := by omega
      have hsw := swap_eq (arr := arr) h0 hi' hj'
      rw [Nat.zero_mul] at hsw
      simp only [hsw, bind, Option.bind]
      have hlen1 : ((arr.set 0 arr[n - 1]).set (n - 1) arr[0]).length = arr.length := by simp
      have hval : ∀ p, ((arr.set 0 arr[n - 1]).set (n - 1) arr[0]).getD p d =
          if p = n - 1 then arr.getD 0 d else if p = 0 then arr.getD (n - 1) d else arr.getD p d :=
        getD_swap d arr hi' hj'
      have hperm1 := swap_perm arr hi' hj'
      revert hlen1 hval hperm1
      generalize (arr.set 0 arr[n - 1]).set (n - 1) arr[0] = arr1
      intro hlen1 hval hperm1
      have hheap : HeapFrom cmp (arr1.getD · d) (0 + 1) (n - 1) := by
        intro p s hp hs hc
        simp only
        rw [hval, hval, if_neg (by omega), if_neg (by omega), if_neg (by omega), if_neg (by omega)]
        exact hP.heap p s (by omega) (by omega) hc
      obtain ⟨b, s1, s2, s3, s4⟩ := sift_spec (d := d) (r := 0) (n := n - 1) ho h0 hl (by omega) (by rw [hlen1]; exact hsz) (by omega) hheap
      rw [Nat.zero_mul] at s1
      have hbl : b.length = arr.length := by rw [s2.length_eq, hlen1]
      have hP' : Phase2 cmp (b.getD · d) (n - 1) b.length := by
        have hlast : ∀ p, n - 1 ≤ p → b.getD p d = if p = n - 1 then arr.getD 0 d else arr.getD p d := by
          intro p hp
          rw [s4 p hp, hval]
          split
          · rfl
          · rw [if_neg (by omega)]
        refine ⟨s3, fun i j hi hij hj => ?_, fun i j hi hj hjl => ?_⟩
        · rw [hlast i hi, hlast j (by omega), if_neg (show ¬ j = n - 1 by omega)]
          split
          · exact hP.above 0 j (by omega) (by omega) (by omega)
          · exact hP.sorted i j (by omega) hij (by omega)
        · rw [hlast j hj]
          have hperm := prefix_perm (m := n - 1) d s2 (fun p hp => s4 p hp)
          have hmem : b.getD i d ∈ b.take (n - 1) := by
            rw [List.mem_take_iff_getElem]
            exact ⟨i, by omega, by simp [List.getD_eq_getElem?_getD, show i < b.length by omega]⟩
          obtain ⟨i', hi'1, hi'2, hi'3⟩ := getD_of_mem_take (hperm.mem_iff.1 hmem) d
          rw [← hi'3, hval i', if_neg (show ¬ i' = n - 1 by omega)]
          have key : ∀ k, k < n → 0 < k → 0 ≤ cmp (if j = n - 1 then arr.getD 0 d else arr.getD j d) (arr.getD k d) := by
            intro k hk hk0
            split
            · rcases heap_root ho hP.heap k hk with e | e
              · omega
              · exact e
            · exact hP.above k j hk (by omega) (by omega)
          by_cases hz : i' = 0
          · rw [if_pos hz]; exact key (n - 1) (by omega) (by omega)
          · rw [if_neg hz]; exact key i' (by omega) (by omega)
      obtain ⟨b', t1, t2, t3⟩ := ih (n - 1) b (by rw [hbl]; exact hsz) (by omega) (by omega) hP' (by omega)
      refine ⟨b', ?_, (t2.trans s2).trans hperm1, t3⟩
      simp only [s1]
      exact t1

theorem mainLoop_phase1 (ho : Ord cmp) (h0 : 0 < c) (hl : (c &&& wneg c) < 2 ^ 32) (r fuel : Nat) (arr : List α) (d : α)
    (hsz : arr.length * c < 2 ^ 63) (hr : r ≤ arr.length) (hn0 : 0 < arr.length) (hh : HeapFrom cmp (arr.getD · d) r arr.length)
    (hf : arr.length + r ≤ fuel) :
    ∃ b, mainLoop cmp c (c &&& wneg c) fuel (r * c) (arr.length * c) arr = some b ∧ b.Perm arr ∧
      ∀ i j, i < j → j < b.length → 0 ≤ cmp (b.getD j d) (b.getD i d) := by
  induction r generalizing fuel arr with
  | zero =>
    rw [Nat.zero_mul]
    exact mainLoop_phase2 ho h0 hl fuel arr.length arr d hsz (Nat.le_refl _) hn0
      ⟨hh, fun i j h1 h2 h3 => by omega, fun i j h1 h2 h3 => by omega⟩ (by omega)
  | succ r ih =>
    cases fuel with
    | zero => omega
    | succ fuel =>
      unfold mainLoop
      rw [if_pos (Nat.ne_of_gt (Nat.mul_pos (Nat.succ_pos r) h0))]
      have hrc : (r + 1) * c ≤ arr.length * c := Nat.mul_le_mul_right _ hr
      have e1 : wsub ((r + 1) * c) c = r * c := by
        have h1 : (r + 1) * c < W64 := by simp only [W64]; omega
        rw [wsub_eq (Nat.le_mul_of_pos_left c (Nat.succ_pos r)) h1, Nat.succ_mul, Nat.add_sub_cancel]
      obtain ⟨b, s1, s2, s3, s4⟩ := sift_spec (d := d) (r := r) (n := arr.length) ho h0 hl (Nat.le_refl _) hsz (by omega) hh
      rw [e1]
      dsimp only
      rw [s1]
      simp only [bind, Option.bind]
      have hbl := s2.length_eq
      obtain ⟨b', t1, t2, t3⟩ := ih fuel b (by rw [hbl]; exact hsz) (by omega) (by omega) (by rw [hbl]; exact s3) (by omega)
      rw [hbl] at t1
      exact ⟨b', t1, t2.trans s2, t3⟩

end
end Bfdev.Sort

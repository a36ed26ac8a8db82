import Verif.Radix.Tidy
/-! Steps from element to element. -/
namespace Bfdev.Radix

theorem find_range_some {p : Nat → Bool} : ∀ {n i : Nat}, (List.range n).find? p = some i → i < n ∧ p i = true ∧ ∀ j, j < i → p j = false := by
  intro n i h
  rw [List.find?_range_eq_some] at h
  refine ⟨List.mem_range.1 h.2.1, h.1, fun j hj => by simpa using h.2.2 j hj⟩

theorem find_range_none {p : Nat → Bool} {n : Nat} (h : (List.range n).find? p = none) : ∀ j, j < n → p j = false := by
  intro j hj
  have := List.find?_eq_none.1 h j (List.mem_range.2 hj)
  simpa using this

theorem find_rev_some {p : Nat → Bool} : ∀ {n i : Nat}, (List.range n).reverse.find? p = some i → i < n ∧ p i = true ∧ ∀ j, i < j → j < n → p j = false := by
  intro n
  induction n with
  | zero => intro i h; simp at h
  | succ n ih =>
    intro i h
    rw [List.range_succ, List.reverse_append, List.reverse_singleton, List.singleton_append, List.find?_cons] at h
    split at h
    · rename_i hp
      cases h
      exact ⟨by omega, hp, fun j _ _ => by omega⟩
    · rename_i hp
      obtain ⟨h1, h2, h3⟩ := ih h
      refine ⟨by omega, h2, fun j hj hn => ?_⟩
      by_cases e : j = n
      · subst e; simpa using hp
      · exact h3 j hj (by omega)

theorem find_rev_none {p : Nat → Bool} {n : Nat} (h : (List.range n).reverse.find? p = none) : ∀ j, j < n → p j = false := by
  intro j hj
  have := List.find?_eq_none.1 h j (List.mem_reverse.2 (List.mem_range.2 hj))
  simpa using this

theorem nextBit_spec (n : Leaf) (s : Nat) : (nextBit n s = 256 ∧ ∀ j, s ≤ j → j < 256 → n.bits j = false) ∨
    (nextBit n s < 256 ∧ s ≤ nextBit n s ∧ n.bits (nextBit n s) = true ∧ ∀ j, s ≤ j → j < nextBit n s → n.bits j = false) := by
  unfold nextBit
  cases h : (List.range 256).find? fun i => decide (s ≤ i) && n.bits i with
  | none =>
    refine Or.inl ⟨rfl, fun j hj hl => ?_⟩
    have := find_range_none h j hl
    simpa [hj] using this
  | some i =>
    obtain ⟨h1, h2, h3⟩ := find_range_some h
    rw [Bool.and_eq_true, decide_eq_true_eq] at h2
    refine Or.inr ⟨h1, h2.1, h2.2, fun j hj hl => ?_⟩
    have := h3 j hl
    simpa [hj] using this

theorem prevBit_spec (n : Leaf) (s : Nat) (hs : s < 256) : (prevBit n s = 256 ∧ ∀ j, j ≤ s → n.bits j = false) ∨
    (prevBit n s ≤ s ∧ n.bits (prevBit n s) = true ∧ ∀ j, prevBit n s < j → j ≤ s → n.bits j = false) := by
  unfold prevBit
  rw [if_neg (by omega)]
  cases h : (List.range 256).reverse.find? fun i => decide (i ≤ s) && n.bits i with
  | none =>
    refine Or.inl ⟨rfl, fun j hj => ?_⟩
    have := find_rev_none h j (by omega)
    simpa [hj] using this
  | some i =>
    obtain ⟨h1, h2, h3⟩ := find_rev_some h
    rw [Bool.and_eq_true, decide_eq_true_eq] at h2
    refine Or.inr ⟨h2.1, h2.2, fun j hj hl => ?_⟩
    have := h3 j hj (by omega)
    simpa [hl] using this

/-- The offset of a place below the child `i`. -/
def join (l i x : Nat) : Nat := i * 2 ^ shift l + x

theorem join_lt {l i x : Nat} (hi : i < 32) (hx : x < 2 ^ shift l) : join l i x < 2 ^ shift (l + 1) := by
  unfold join
  rw [pow_succ_shift]
  have := Nat.mul_le_mul_right (2 ^ shift l) (show i + 1 ≤ 32 from hi)
  rw [Nat.add_mul] at this
  omega

theorem join_index {l i x : Nat} (hi : i < 32) (hx : x < 2 ^ shift l) : depthIndex l (join l i x) = i := by
  unfold depthIndex join
  rw [Nat.mul_comm, Nat.mul_add_div (pow_pos' _), Nat.div_eq_of_lt hx]
  omega

theorem join_mod {l i x : Nat} (hx : x < 2 ^ shift l) : join l i x % 2 ^ shift l = x := by
  unfold join
  rw [Nat.mul_comm, Nat.mul_add_mod, Nat.mod_eq_of_lt hx]

theorem join_split {l o : Nat} (h : o < 2 ^ shift (l + 1)) : o = join l (depthIndex l o) (o % 2 ^ shift l) := offset_split h

theorem cell_join {l : Nat} (b : Branch (Node l)) {i x : Nat} (hi : i < 32) (hx : x < 2 ^ shift l) :
    cell (l + 1) b (join l i x) = match b.child i with | none => none | some c => cell l c x := by
  rw [cell_succ, join_index hi hx, join_mod hx]
  cases b.child i <;> rfl

theorem join_lt_iff {l i j x y : Nat} (hx : x < 2 ^ shift l) (hy : y < 2 ^ shift l) :
    join l i x < join l j y ↔ i < j ∨ i = j ∧ x < y := by
  unfold join
  rcases Nat.lt_trichotomy i j with h | h | h
  · have := Nat.mul_le_mul_right (2 ^ shift l) (show i + 1 ≤ j from h)
    rw [Nat.add_mul] at this
    constructor
    · intro _; exact Or.inl h
    · intro _; omega
  · subst h
    constructor
    · intro h; exact Or.inr ⟨rfl, by omega⟩
    · rintro (h | h) <;> omega
  · have := Nat.mul_le_mul_right (2 ^ shift l) (show j + 1 ≤ i from h)
    rw [Nat.add_mul] at this
    constructor
    · intro _; omega
    · rintro (h | h) <;> omega

theorem dvd_shift (l : Nat) : 256 ∣ 2 ^ shift l := by
  show 2 ^ 8 ∣ 2 ^ shift l
  exact Nat.pow_dvd_pow 2 (by unfold shift; omega)

theorem join_block {l i x : Nat} : join l i x / 256 * 256 = i * 2 ^ shift l + x / 256 * 256 := by
  obtain ⟨k, hk⟩ := dvd_shift l
  unfold join
  rw [hk, show i * (256 * k) = 256 * (i * k) by rw [Nat.mul_left_comm], Nat.mul_add_div (by omega), Nat.add_mul, Nat.mul_comm (i * k)]

theorem or_block {l o i x : Nat} (hx : x < 2 ^ shift l) : o ||| i <<< shift l ||| (x / 256 * 256) = o ||| (join l i x / 256 * 256) := by
  rw [join_block, Nat.or_assoc, Nat.shiftLeft_eq, Nat.mul_comm i]
  rw [← Nat.two_pow_add_eq_or_of_lt (Nat.lt_of_le_of_lt (Nat.div_mul_le_self _ _) hx)]

theorem finish_eq (o c : Nat) (hc : c < 256) : finish o c = o / 256 * 256 + c := by
  unfold finish
  rw [Nat.mul_comm]
  exact (Nat.two_pow_add_eq_or_of_lt (i := 8) hc _).symm

theorem leftMost_spec : ∀ (l : Nat) (n : Node l) (o : Nat), Tidy l false n → ∃ leaf m, leftMost l n o = some (leaf, o ||| (m / 256 * 256)) ∧
    m < 2 ^ shift l ∧ cell l n m = some (leaf.id, nextBit leaf 0) ∧ ∀ x, x < m → cell l n x = none := by
  intro l
  induction l with
  | zero =>
    intro n o ht
    rcases ht with h | ⟨i, hi, hb⟩
    · cases h
    · have hs := nextBit_spec n 0
      rcases hs with ⟨_, h⟩ | ⟨h1, _, h2, h3⟩
      · rw [h i (by omega) hi] at hb; cases hb
      · refine ⟨n, nextBit n 0, ?_, by rw [shift_zero]; exact h1, ?_, ?_⟩
        · rw [Nat.div_eq_of_lt h1]; simp [leftMost]
        · rw [cell_zero, if_pos h2]
        · intro x hx
          rw [cell_zero, h3 x (by omega) hx]; rfl
  | succ l ih =>
    intro b o ht
    unfold leftMost
    cases hf : (List.range 32).find? fun i => (Branch.child b i).isSome with
    | none =>
      obtain ⟨i, hi, h⟩ := ht.2.1
      rw [find_range_none hf i hi] at h; cases h
    | some i =>
      obtain ⟨h1, h2, h3⟩ := find_range_some hf
      dsimp only
      cases hc : Branch.child b i with
      | none => rw [hc] at h2; cases h2
      | some c =>
        obtain ⟨leaf, m, g1, g2, g3, g4⟩ := ih c (o ||| i <<< shift l) (ht.2.2 i c hc)
        refine ⟨leaf, join l i m, ?_, join_lt h1 g2, ?_, ?_⟩
        · dsimp only
          rw [g1, or_block g2]
        · rw [cell_join b h1 g2, hc]; exact g3
        · intro x hx
          have hxl : x < 2 ^ shift (l + 1) := Nat.lt_trans hx (join_lt h1 g2)
          have hxm := Nat.mod_lt x (pow_pos' (shift l))
          rw [join_split hxl] at hx ⊢
          rw [cell_join b (index_of_lt hxl).2 hxm]
          rcases (join_lt_iff hxm g2).1 hx with h | ⟨h, h'⟩
          · have := h3 _ h
            cases hd : Branch.child b (depthIndex l x) with
            | none => rfl
            | some d => rw [hd] at this; cases this
          · rw [h, hc]; exact g4 _ h'

theorem leftMost_low : ∀ (l : Nat) (n : Node l), Tidy l true n → ∃ leaf, leftMost l n 0 = some (leaf, 0) ∧
    ∀ x, x < 256 → cell l n x = if leaf.bits x then some (leaf.id, x) else none := by
  intro l
  induction l with
  | zero => intro n _; exact ⟨n, rfl, fun x _ => rfl⟩
  | succ l ih =>
    intro b ht
    have h0 := ht.1 rfl
    unfold leftMost
    cases hf : (List.range 32).find? fun i => (Branch.child b i).isSome with
    | none => rw [find_range_none hf 0 (by omega)] at h0; cases h0
    | some i =>
      obtain ⟨h1, h2, h3⟩ := find_range_some hf
      have : i = 0 := by
        refine Nat.eq_zero_of_not_pos fun h => ?_
        rw [h3 0 h] at h0; cases h0
      subst this
      dsimp only
      cases hc : Branch.child b 0 with
      | none => rw [hc] at h2; cases h2
      | some c =>
        obtain ⟨leaf, g1, g2⟩ := ih c (ht.2.2 0 c hc)
        refine ⟨leaf, ?_, fun x hx => ?_⟩
        · dsimp only
          rw [Nat.zero_shiftLeft, Nat.or_self]; exact g1
        · have hxl : x < 2 ^ shift l := Nat.lt_of_lt_of_le hx (Nat.le_of_dvd (pow_pos' _) (dvd_shift l))
          have : join l 0 x = x := by unfold join; omega
          rw [← this, cell_join b (by omega) hxl, hc, this]; exact g2 x hx

theorem rightMost_spec : ∀ (l : Nat) (lm : Bool) (n : Node l) (o : Nat), Tidy l lm n → ∃ leaf m, rightMost l n o = some (leaf, o ||| (m / 256 * 256)) ∧
    m < 2 ^ shift l ∧ ((lastBit leaf < 256 ∧ cell l n m = some (leaf.id, lastBit leaf) ∧ ∀ x, m < x → x < 2 ^ shift l → cell l n x = none) ∨
      (lastBit leaf = 256 ∧ lm = true ∧ ∀ x, x < 2 ^ shift l → cell l n x = none)) := by
  intro l
  induction l with
  | zero =>
    intro lm n o ht
    rcases prevBit_spec n 255 (by omega) with ⟨h1, h2⟩ | ⟨h1, h2, h3⟩
    · refine ⟨n, 0, by simp [rightMost], by rw [shift_zero]; omega, Or.inr ⟨h1, ?_, ?_⟩⟩
      · rcases ht with h | ⟨i, hi, hb⟩
        · exact h
        · rw [h2 i (by omega)] at hb; cases hb
      · intro x hx
        rw [shift_zero] at hx
        rw [cell_zero, h2 x (by omega)]; rfl
    · refine ⟨n, prevBit n 255, ?_, by rw [shift_zero]; omega, Or.inl ⟨by unfold lastBit; omega, ?_, ?_⟩⟩
      · rw [Nat.div_eq_of_lt (by omega)]; simp [rightMost]
      · rw [cell_zero, if_pos h2]; rfl
      · intro x hx hl
        rw [shift_zero] at hl
        rw [cell_zero, h3 x hx (by omega)]; rfl
  | succ l ih =>
    intro lm b o ht
    unfold rightMost
    cases hf : (List.range 32).reverse.find? fun i => (Branch.child b i).isSome with
    | none =>
      obtain ⟨i, hi, h⟩ := ht.2.1
      rw [find_rev_none hf i hi] at h; cases h
    | some i =>
      obtain ⟨h1, h2, h3⟩ := find_rev_some hf
      dsimp only
      cases hc : Branch.child b i with
      | none => rw [hc] at h2; cases h2
      | some c =>
        obtain ⟨leaf, m, g1, g2, g3⟩ := ih _ c (o ||| i <<< shift l) (ht.2.2 i c hc)
        have hgt : ∀ j, i < j → j < 32 → Branch.child b j = none := by
          intro j hj hl
          have := h3 j hj hl
          cases hd : Branch.child b j with
          | none => rfl
          | some d => rw [hd] at this; cases this
        refine ⟨leaf, join l i m, ?_, join_lt h1 g2, ?_⟩
        · dsimp only
          rw [g1, or_block g2]
        · rcases g3 with ⟨k1, k2, k3⟩ | ⟨k1, k2, k3⟩
          · refine Or.inl ⟨k1, ?_, ?_⟩
            · rw [cell_join b h1 g2, hc]; exact k2
            · intro x hx hxl
              have hxm := Nat.mod_lt x (pow_pos' (shift l))
              rw [join_split hxl] at hx ⊢
              rw [cell_join b (index_of_lt hxl).2 hxm]
              rcases (join_lt_iff g2 hxm).1 hx with h | ⟨h, h'⟩
              · rw [hgt _ h (index_of_lt hxl).2]
              · rw [← h, hc]; exact k3 _ h' hxm
          · rw [Bool.and_eq_true, beq_iff_eq] at k2
            refine Or.inr ⟨k1, k2.1, fun x hxl => ?_⟩
            have hxm := Nat.mod_lt x (pow_pos' (shift l))
            rw [join_split hxl, cell_join b (index_of_lt hxl).2 hxm]
            by_cases h : depthIndex l x = i
            · rw [h, hc]; exact k3 _ hxm
            · rw [hgt _ (by omega) (index_of_lt hxl).2]

theorem block_of {whole o l : Nat} (h : whole % 2 ^ shift l = o) (ho : o < 256) : whole / 256 * 256 = whole - o ∧ o ≤ whole := by
  obtain ⟨k, hk⟩ := dvd_shift l
  have h1 : whole % 256 = o % 256 := by rw [← h]; exact (Nat.mod_mod_of_dvd _ (dvd_shift l)).symm
  omega

/-- Changing the lowest digit of an offset, and its place in the block. -/
theorem jump_zero {whole o i c : Nat} (h : whole % 2 ^ shift 1 = o) (hi : i < 32) (hc : c < 256) :
    finish (setDigit whole 0 i) c = whole - o + join 0 i c := by
  rw [finish_eq _ _ hc]
  have e1 : 2 ^ shift 1 = 8192 := by decide
  rw [e1] at h
  have hd : whole = 8192 * (whole / 8192) + (256 * (whole / 256 % 32) + whole % 256) := by omega
  have : setDigit whole 0 i = 8192 * (whole / 8192) + (256 * i + whole % 256) := by
    unfold setDigit depthIndex
    rw [shift_zero]
    have e2 : whole - whole / 256 % 32 * 256 = 256 * (32 * (whole / 8192)) + whole % 256 := by omega
    rw [e2]
    have hm : whole % 256 < 2 ^ 8 := Nat.mod_lt _ (by omega)
    generalize whole % 256 = d at hm
    generalize whole / 8192 = g
    have a1 : 256 * (32 * g) + d = (32 * g) <<< 8 ||| d := by
      rw [Nat.shiftLeft_eq, Nat.mul_comm _ (2 ^ 8)]
      exact Nat.two_pow_add_eq_or_of_lt (i := 8) hm _
    have a2 : 32 * g ||| i = 32 * g + i := (Nat.two_pow_add_eq_or_of_lt (i := 5) hi g).symm
    rw [a1, Nat.or_assoc, Nat.or_comm d, ← Nat.or_assoc, show shift 0 = 8 from rfl, ← Nat.shiftLeft_or_distrib, a2, Nat.shiftLeft_eq,
      Nat.mul_comm _ (2 ^ 8), ← Nat.two_pow_add_eq_or_of_lt hm]
    omega
  rw [this]
  unfold join
  rw [shift_zero]
  omega

/-- What a step upwards must come to. -/
def NextSpec (l : Nat) (n : Node l) (o whole : Nat) : Step → Prop
  | .ub => False
  | .absent => False
  | .up => ∀ x, o < x → x < 2 ^ shift l → cell l n x = none
  | .found p o' => ∃ m, o < m ∧ m < 2 ^ shift l ∧ cell l n m = some p ∧ (∀ x, o < x → x < m → cell l n x = none) ∧
      (m / 8192 = o / 8192 → o' = whole - o + m)

theorem near {l i j x y : Nat} (h : join (l + 1) i x / 8192 = join (l + 1) j y / 8192) (hx : x < 2 ^ shift (l + 1)) (hy : y < 2 ^ shift (l + 1)) :
    i = j ∧ x / 8192 = y / 8192 := by
  have hd : 2 ^ shift (l + 1) = 8192 * 2 ^ (5 * l) := by
    rw [show (8192 : Nat) = 2 ^ 13 from rfl, ← Nat.pow_add]; congr 1; unfold shift; omega
  unfold join at h
  rw [hd] at h hx hy
  rw [show i * (8192 * 2 ^ (5 * l)) = 8192 * (i * 2 ^ (5 * l)) by rw [Nat.mul_left_comm],
    show j * (8192 * 2 ^ (5 * l)) = 8192 * (j * 2 ^ (5 * l)) by rw [Nat.mul_left_comm], Nat.mul_add_div (by omega), Nat.mul_add_div (by omega)] at h
  have hx' : x / 8192 < 2 ^ (5 * l) := (Nat.div_lt_iff_lt_mul (by omega)).2 (by omega)
  have hy' : y / 8192 < 2 ^ (5 * l) := (Nat.div_lt_iff_lt_mul (by omega)).2 (by omega)
  generalize x / 8192 = a at *
  generalize y / 8192 = b at *
  generalize 2 ^ (5 * l) = q at *
  have hij : i = j := by
    rcases Nat.lt_trichotomy i j with e | e | e
    · have := Nat.mul_le_mul_right q (show i + 1 ≤ j from e)
      rw [Nat.add_mul] at this; omega
    · exact e
    · have := Nat.mul_le_mul_right q (show j + 1 ≤ i from e)
      rw [Nat.add_mul] at this; omega
  subst hij
  exact ⟨rfl, by omega⟩

theorem whole_ge {l whole o : Nat} (h : whole % 2 ^ shift l = o) : o ≤ whole := h ▸ Nat.mod_le _ _

theorem nextIn_spec : ∀ (l : Nat) (lm : Bool) (n : Node l) (o whole : Nat), Tidy l lm n → whole % 2 ^ shift l = o → cell l n o ≠ none →
    NextSpec l n o whole (nextIn l n o whole) := by
  intro l
  induction l with
  | zero =>
    intro lm n o whole ht ho hc
    have hlt : o < 2 ^ shift 0 := ho ▸ Nat.mod_lt _ (pow_pos' _)
    have hlt' := hlt
    rw [shift_zero] at hlt'
    unfold nextIn
    rw [if_neg (by omega)]
    have hb : Leaf.bits n o = true := by
      cases hb : Leaf.bits n o with
      | true => rfl
      | false => rw [cell_zero, hb] at hc; exact absurd rfl hc
    rw [if_pos hb]
    rcases nextBit_spec n (o + 1) with ⟨h1, h2⟩ | ⟨h1, h2, h3, h4⟩
    · rw [if_neg (by omega)]
      intro x hx hl
      rw [shift_zero] at hl
      rw [cell_zero, h2 x (by omega) hl]; rfl
    · rw [if_pos h1]
      refine ⟨nextBit n (o + 1), by omega, by rw [shift_zero]; exact h1, by rw [cell_zero, if_pos h3], ?_, ?_⟩
      · intro x hx hl
        rw [cell_zero, h4 x (by omega) hl]; rfl
      · intro _
        rw [finish_eq _ _ h1]
        have := block_of ho hlt'
        omega
  | succ l ih =>
    intro lm b o whole ht ho hcell
    have hlt : o < 2 ^ shift (l + 1) := ho ▸ Nat.mod_lt _ (pow_pos' _)
    obtain ⟨_, hi32⟩ := index_of_lt hlt
    have hom := Nat.mod_lt o (pow_pos' (shift l))
    have hsplit := join_split hlt
    have hole := whole_ge ho
    have hwm := mod_mod_shift ho
    unfold nextIn
    cases hc : Branch.child b (depthIndex l o) with
    | none => rw [cell_succ, hc] at hcell; exact absurd rfl hcell
    | some c =>
      have hcc : cell l c (o % 2 ^ shift l) ≠ none := by rw [cell_succ, hc] at hcell; exact hcell
      have hs := ih _ c (o % 2 ^ shift l) whole (ht.2.2 _ c hc) hwm hcc
      have hwle := whole_ge hwm
      dsimp only
      generalize nextIn l c (o % 2 ^ shift l) whole = s at hs ⊢
      cases s with
      | ub => exact hs
      | absent => exact hs
      | found p o' =>
        obtain ⟨m, h1, h2, h3, h4, h5⟩ := hs
        have hom' : o = join l (depthIndex l o) (o % 2 ^ shift l) := hsplit
        refine ⟨join l (depthIndex l o) m, ?_, join_lt hi32 h2, ?_, ?_, ?_⟩
        · conv => lhs; rw [hsplit]
          exact (join_lt_iff hom h2).2 (Or.inr ⟨rfl, h1⟩)
        · rw [cell_join b hi32 h2, hc]; exact h3
        · intro x hx hxm
          have hxl := Nat.lt_trans hxm (join_lt hi32 h2)
          have hxm' := Nat.mod_lt x (pow_pos' (shift l))
          rw [join_split hxl, hsplit] at hx
          rw [join_split hxl] at hxm ⊢
          have a1 := (join_lt_iff hom hxm').1 hx
          have a2 := (join_lt_iff hxm' h2).1 hxm
          have e : depthIndex l x = depthIndex l o := by omega
          rw [cell_join b (index_of_lt hxl).2 hxm', e, hc]
          exact h4 _ (by omega) (by omega)
        · intro hn
          have hsub : m / 8192 = o % 2 ^ shift l / 8192 := by
            cases l with
            | zero =>
              rw [shift_zero] at h2 ⊢
              omega
            | succ l =>
              rw [hsplit] at hn
              rw [join_index hi32 hom] at hn
              exact (near hn h2 hom).2
          have := h5 hsub
          unfold join at hsplit ⊢
          omega
      | up =>
        have hs : ∀ x, o % 2 ^ shift l < x → x < 2 ^ shift l → cell l c x = none := hs
        dsimp only
        cases hf : (List.range 32).find? fun i => decide (depthIndex l o < i) && (Branch.child b i).isSome with
        | none =>
          intro x hx hxl
          have hxm' := Nat.mod_lt x (pow_pos' (shift l))
          rw [join_split hxl, hsplit] at hx
          rw [join_split hxl, cell_join b (index_of_lt hxl).2 hxm']
          rcases (join_lt_iff hom hxm').1 hx with h | ⟨h, h'⟩
          · have := find_range_none hf _ (index_of_lt hxl).2
            rw [Bool.and_eq_false_iff] at this
            rcases this with h2 | h2
            · simp at h2; omega
            · cases hd : Branch.child b (depthIndex l x) with
              | none => rfl
              | some d => rw [hd] at h2; cases h2
          · rw [← h, hc]; exact hs _ h' hxm'
        | some i =>
          obtain ⟨h1, h2, h3⟩ := find_range_some hf
          rw [Bool.and_eq_true, decide_eq_true_eq] at h2
          dsimp only
          cases hd : Branch.child b i with
          | none => rw [hd] at h2; cases h2.2
          | some d =>
            have htd := ht.2.2 i d hd
            have hi0 : (lm && i == 0) = false := by
              have : i ≠ 0 := by omega
              simp [this]
            rw [hi0] at htd
            obtain ⟨leaf, m, g1, g2, g3, g4⟩ := leftMost_spec l d (setDigit whole l i) htd
            dsimp only
            rw [g1]
            dsimp only
            have g5 := (cell_mem l d m _ g2 g3).2
            dsimp only at g5
            refine ⟨join l i m, ?_, join_lt h1 g2, ?_, ?_, ?_⟩
            · conv => lhs; rw [hsplit]
              exact (join_lt_iff hom g2).2 (Or.inl h2.1)
            · rw [cell_join b h1 g2, hd]; exact g3
            · intro x hx hxm
              have hxl := Nat.lt_trans hxm (join_lt h1 g2)
              have hxm' := Nat.mod_lt x (pow_pos' (shift l))
              rw [join_split hxl, hsplit] at hx
              rw [join_split hxl] at hxm ⊢
              have a1 := (join_lt_iff hom hxm').1 hx
              have a2 := (join_lt_iff hxm' g2).1 hxm
              rw [cell_join b (index_of_lt hxl).2 hxm']
              rcases a2 with a2 | ⟨a2, a3⟩
              · rcases a1 with a1 | ⟨a1, a3⟩
                · have := h3 _ a2
                  rw [Bool.and_eq_false_iff] at this
                  rcases this with k2 | k2
                  · simp at k2; omega
                  · cases he : Branch.child b (depthIndex l x) with
                    | none => rfl
                    | some e => rw [he] at k2; cases k2
                · rw [← a1, hc]; exact hs _ a3 hxm'
              · rw [a2, hd]; exact g4 _ a3
            · intro hn
              cases l with
              | zero =>
                have e0 := shift_zero
                have gm : m / 256 * 256 = 0 := by rw [e0] at g2; omega
                have gm2 : nextBit leaf 0 = m := by rw [e0] at g2; omega
                rw [gm, Nat.or_zero, gm2]
                exact jump_zero ho h1 (by rw [e0] at g2; omega)
              | succ l =>
                conv at hn => rhs; rw [hsplit]
                have := (near hn g2 hom).1
                omega

/-- What a step downwards must come to; the last case is the pointer behind the leftmost leaf. -/
def PrevSpec (l : Nat) (lm : Bool) (n : Node l) (o whole : Nat) : Step → Prop
  | .ub => False
  | .absent => False
  | .up => ∀ x, x < o → cell l n x = none
  | .found p o' => (∃ m, m < o ∧ cell l n m = some p ∧ (∀ x, m < x → x < o → cell l n x = none) ∧ (m / 8192 = o / 8192 → o' = whole - o + m)) ∨
      (lm = true ∧ ∀ x, x < o → cell l n x = none)

theorem prevIn_spec : ∀ (l : Nat) (lm : Bool) (n : Node l) (o whole : Nat), Tidy l lm n → whole % 2 ^ shift l = o → cell l n o ≠ none →
    PrevSpec l lm n o whole (prevIn l n o whole) := by
  intro l
  induction l with
  | zero =>
    intro lm n o whole ht ho hc
    have hlt : o < 2 ^ shift 0 := ho ▸ Nat.mod_lt _ (pow_pos' _)
    have hlt' := hlt
    rw [shift_zero] at hlt'
    unfold prevIn
    rw [if_neg (by omega)]
    have hb : Leaf.bits n o = true := by
      cases hb : Leaf.bits n o with
      | true => rfl
      | false => rw [cell_zero, hb] at hc; exact absurd rfl hc
    rw [if_pos hb]
    have key : (prevBit n (dec32 o) = 256 ∧ ∀ x, x < o → n.bits x = false) ∨
        (prevBit n (dec32 o) < o ∧ n.bits (prevBit n (dec32 o)) = true ∧ ∀ x, prevBit n (dec32 o) < x → x < o → n.bits x = false) := by
      rcases Nat.eq_zero_or_pos o with h0 | h0
      · refine Or.inl ⟨?_, fun x hx => by omega⟩
        unfold prevBit
        rw [if_pos (by unfold dec32; omega)]
      · have hd : dec32 o = o - 1 := by unfold dec32; omega
        rw [hd]
        rcases prevBit_spec n (o - 1) (by omega) with ⟨h1, h2⟩ | ⟨h1, h2, h3⟩
        · exact Or.inl ⟨h1, fun x hx => h2 x (by omega)⟩
        · exact Or.inr ⟨by omega, h2, fun x hx hl => h3 x hx (by omega)⟩
    dsimp only
    generalize prevBit n (dec32 o) = q at key ⊢
    rcases key with ⟨h1, h2⟩ | ⟨h1, h2, h3⟩
    · rw [if_neg (by omega)]
      intro x hx
      rw [cell_zero, h2 x hx]; rfl
    · rw [if_pos (by omega)]
      refine Or.inl ⟨q, h1, by rw [cell_zero, if_pos h2], ?_, ?_⟩
      · intro x hx hl
        rw [cell_zero, h3 x hx hl]; rfl
      · intro _
        rw [finish_eq _ _ (by omega)]
        have := block_of ho hlt'
        omega
  | succ l ih =>
    intro lm b o whole ht ho hcell
    have hlt : o < 2 ^ shift (l + 1) := ho ▸ Nat.mod_lt _ (pow_pos' _)
    obtain ⟨_, hi32⟩ := index_of_lt hlt
    have hom := Nat.mod_lt o (pow_pos' (shift l))
    have hsplit := join_split hlt
    have hole := whole_ge ho
    have hwm := mod_mod_shift ho
    unfold prevIn
    cases hc : Branch.child b (depthIndex l o) with
    | none => rw [cell_succ, hc] at hcell; exact absurd rfl hcell
    | some c =>
      have hcc : cell l c (o % 2 ^ shift l) ≠ none := by rw [cell_succ, hc] at hcell; exact hcell
      have hs := ih _ c (o % 2 ^ shift l) whole (ht.2.2 _ c hc) hwm hcc
      have hwle := whole_ge hwm
      dsimp only
      generalize prevIn l c (o % 2 ^ shift l) whole = s at hs ⊢
      cases s with
      | ub => exact hs
      | absent => exact hs
      | found p o' =>
        rcases hs with ⟨m, h1, h3, h4, h5⟩ | ⟨h1, h2⟩
        · have h2 : m < 2 ^ shift l := by omega
          refine Or.inl ⟨join l (depthIndex l o) m, ?_, ?_, ?_, ?_⟩
          · conv => rhs; rw [hsplit]
            exact (join_lt_iff h2 hom).2 (Or.inr ⟨rfl, h1⟩)
          · rw [cell_join b hi32 h2, hc]; exact h3
          · intro x hx hxo
            have hxl := Nat.lt_trans hxo hlt
            have hxm' := Nat.mod_lt x (pow_pos' (shift l))
            rw [join_split hxl, hsplit] at hxo
            rw [join_split hxl] at hx ⊢
            have a1 := (join_lt_iff hxm' hom).1 hxo
            have a2 := (join_lt_iff h2 hxm').1 hx
            have e : depthIndex l x = depthIndex l o := by omega
            rw [cell_join b (index_of_lt hxl).2 hxm', e, hc]
            exact h4 _ (by omega) (by omega)
          · intro hn
            have hsub : m / 8192 = o % 2 ^ shift l / 8192 := by
              cases l with
              | zero =>
                rw [shift_zero] at h2 ⊢
                omega
              | succ l =>
                rw [hsplit] at hn
                rw [join_index hi32 hom] at hn
                exact (near hn h2 hom).2
            have := h5 hsub
            unfold join at hsplit ⊢
            omega
        · rw [Bool.and_eq_true, beq_iff_eq] at h1
          refine Or.inr ⟨h1.1, fun x hx => ?_⟩
          have hxl := Nat.lt_trans hx hlt
          have hxm' := Nat.mod_lt x (pow_pos' (shift l))
          rw [join_split hxl, hsplit] at hx
          have a1 := (join_lt_iff hxm' hom).1 hx
          have e : depthIndex l x = depthIndex l o := by omega
          rw [join_split hxl, cell_join b (index_of_lt hxl).2 hxm', e, hc]
          exact h2 _ (by omega)
      | up =>
        have hs : ∀ x, x < o % 2 ^ shift l → cell l c x = none := hs
        dsimp only
        cases hf : (List.range 32).reverse.find? fun i => decide (i < depthIndex l o) && (Branch.child b i).isSome with
        | none =>
          intro x hx
          have hxl := Nat.lt_trans hx hlt
          have hxm' := Nat.mod_lt x (pow_pos' (shift l))
          rw [join_split hxl, hsplit] at hx
          rw [join_split hxl, cell_join b (index_of_lt hxl).2 hxm']
          rcases (join_lt_iff hxm' hom).1 hx with h | ⟨h, h'⟩
          · have := find_rev_none hf _ (index_of_lt hxl).2
            rw [Bool.and_eq_false_iff] at this
            rcases this with h2 | h2
            · simp at h2; omega
            · cases hd : Branch.child b (depthIndex l x) with
              | none => rfl
              | some d => rw [hd] at h2; cases h2
          · rw [h, hc]; exact hs _ h'
        | some i =>
          obtain ⟨h1, h2, h3⟩ := find_rev_some hf
          rw [Bool.and_eq_true, decide_eq_true_eq] at h2
          have hbetween : ∀ j, i < j → j < depthIndex l o → Branch.child b j = none := by
            intro j hj hjo
            have := h3 j hj (by omega)
            rw [Bool.and_eq_false_iff] at this
            rcases this with k2 | k2
            · simp at k2; omega
            · cases he : Branch.child b j with
              | none => rfl
              | some e => rw [he] at k2; cases k2
          dsimp only
          cases hd : Branch.child b i with
          | none => rw [hd] at h2; cases h2.2
          | some d =>
            obtain ⟨leaf, m, g1, g2, g3⟩ := rightMost_spec l _ d (setDigit whole l i) (ht.2.2 i d hd)
            dsimp only
            rw [g1]
            dsimp only
            rcases g3 with ⟨g3, g4, g6⟩ | ⟨g3, g4, g6⟩
            · have g5 := (cell_mem l d m _ g2 g4).2
              dsimp only at g5
              refine Or.inl ⟨join l i m, ?_, ?_, ?_, ?_⟩
              · conv => rhs; rw [hsplit]
                exact (join_lt_iff g2 hom).2 (Or.inl h2.1)
              · rw [cell_join b h1 g2, hd]; exact g4
              · intro x hx hxo
                have hxl := Nat.lt_trans hxo hlt
                have hxm' := Nat.mod_lt x (pow_pos' (shift l))
                rw [join_split hxl, hsplit] at hxo
                rw [join_split hxl] at hx ⊢
                have a1 := (join_lt_iff hxm' hom).1 hxo
                have a2 := (join_lt_iff g2 hxm').1 hx
                rw [cell_join b (index_of_lt hxl).2 hxm']
                rcases a1 with a1 | ⟨a1, a3⟩
                · rcases a2 with a2 | ⟨a2, a3⟩
                  · rw [hbetween _ a2 a1]
                  · rw [← a2, hd]; exact g6 _ a3 hxm'
                · rw [a1, hc]; exact hs _ a3
              · intro hn
                cases l with
                | zero =>
                  have e0 := shift_zero
                  have gm : m / 256 * 256 = 0 := by rw [e0] at g2; omega
                  have gm2 : lastBit leaf = m := by rw [e0] at g2; omega
                  rw [gm, Nat.or_zero, gm2]
                  exact jump_zero ho h1 (by rw [e0] at g2; omega)
                | succ l =>
                  conv at hn => rhs; rw [hsplit]
                  have := (near hn g2 hom).1
                  omega
            · rw [Bool.and_eq_true, beq_iff_eq] at g4
              refine Or.inr ⟨g4.1, fun x hx => ?_⟩
              have hxl := Nat.lt_trans hx hlt
              have hxm' := Nat.mod_lt x (pow_pos' (shift l))
              rw [join_split hxl, hsplit] at hx
              have a1 := (join_lt_iff hxm' hom).1 hx
              rw [join_split hxl, cell_join b (index_of_lt hxl).2 hxm']
              rcases a1 with a1 | ⟨a1, a3⟩
              · by_cases e : depthIndex l x = i
                · rw [e, hd]; exact g6 _ hxm'
                · rw [hbetween _ (by omega) a1]
              · rw [a1, hc]; exact hs _ a3

theorem prevIn_low : ∀ (l : Nat) (n : Node l) (o whole : Nat), o < 256 → cell l n o ≠ none → (∀ x, x < o → cell l n x = none) → prevIn l n o whole = .up := by
  intro l
  induction l with
  | zero =>
    intro n o whole ho hc hn
    unfold prevIn
    rw [if_neg (by omega)]
    have hb : Leaf.bits n o = true := by
      cases hb : Leaf.bits n o with
      | true => rfl
      | false => rw [cell_zero, hb] at hc; exact absurd rfl hc
    rw [if_pos hb]
    have key : prevBit n (dec32 o) = 256 := by
      rcases Nat.eq_zero_or_pos o with h0 | h0
      · unfold prevBit
        rw [if_pos (by unfold dec32; omega)]
      · have hd : dec32 o = o - 1 := by unfold dec32; omega
        rw [hd]
        rcases prevBit_spec n (o - 1) (by omega) with ⟨h1, h2⟩ | ⟨h1, h2, h3⟩
        · exact h1
        · have := hn (prevBit n (o - 1)) (by omega)
          rw [cell_zero, if_pos h2] at this; cases this
    dsimp only
    generalize prevBit n (dec32 o) = q at key ⊢
    exact if_neg (by omega)
  | succ l ih =>
    intro b o whole ho hcell hn
    have hol : o < 2 ^ shift l := Nat.lt_of_lt_of_le ho (Nat.le_of_dvd (pow_pos' _) (dvd_shift l))
    have hz := depthIndex_zero hol
    unfold prevIn
    rw [hz]
    cases hc : Branch.child b 0 with
    | none => rw [cell_succ, hz, hc] at hcell; exact absurd rfl hcell
    | some c =>
      have e : ∀ x, x ≤ o → cell (l + 1) b x = cell l c x := by
        intro x hx
        have hxl : x < 2 ^ shift l := by omega
        rw [cell_succ, depthIndex_zero hxl, hc, Nat.mod_eq_of_lt hxl]
      dsimp only
      rw [Nat.mod_eq_of_lt hol, ih c o whole ho (by rw [← e o (Nat.le_refl _)]; exact hcell) fun x hx => by rw [← e x (by omega)]; exact hn x hx]
      dsimp only
      cases hf : (List.range 32).reverse.find? fun i => decide (i < 0) && (Branch.child b i).isSome with
      | none => rfl
      | some i =>
        have := (find_rev_some hf).2.1
        simp at this

end Bfdev.Radix

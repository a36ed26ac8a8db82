import Verif.Bitmap.LogicProps
/-!
C95: every iteration macro of `include/bfdev/bitwalk.h`: over set or zero bits, upwards or downwards, over the whole bitmap, from a position or after a
position, with a body that may change the bitmap while it is walked.
-/
namespace Bfdev.Bitmap

/-- Where an iteration starts: the plain macros, the `_form` macros or the `_continue` macros. -/
inductive Start where
  | all
  | from (x : Nat)
  | after (x : Nat)
deriving DecidableEq

/-- The step of a macro: `find_next(index + 1)`, or `find_prev(index - 1)` in the `_reverse` macros; the index is an `unsigned int`. -/
def step (zero back const : Bool) (a bits : Nat) (m : Mem) (index : Nat) : Option Nat :=
  match zero, back with
  | false, false => findNextBit const m a bits ((index + 1) % 2 ^ 32)
  | true, false => findNextZero const m a bits ((index + 1) % 2 ^ 32)
  | false, true => findPrevBit const m a bits ((index + (2 ^ 32 - 1)) % 2 ^ 32)
  | true, true => findPrevZero const m a bits ((index + (2 ^ 32 - 1)) % 2 ^ 32)

/-- The first index of a macro over the whole bitmap. -/
def begin_ (zero back const : Bool) (a bits : Nat) (m : Mem) : Option Nat :=
  match zero, back with
  | false, false => findFirstBit const m a bits
  | true, false => findFirstZero const m a bits
  | false, true => findLastBit const m a bits
  | true, true => findLastZero const m a bits

/-- The loop: `for (; index < bits; index = step(index)) body`, the indices visited and the memory left. -/
def iterLoop (bits : Nat) (step : Mem → Nat → Option Nat) (body : Mem → Nat → Mem) : Nat → Mem → Nat → Option (List Nat × Mem)
  | 0, _, _ => none
  | fuel + 1, m, index =>
    if index < bits then do
      let m := body m index
      let r ← iterLoop bits step body fuel m (← step m index)
      return (index :: r.1, r.2)
    else some ([], m)

/-- `bfdev_for_each_{bit,zero}`, bitwalk.h:255-263, `_reverse`, bitwalk.h:265-273, `_form` and `_reverse_form`, bitwalk.h:275-289, `_continue` and
`_reverse_continue`, bitwalk.h:291-309. -/
def iterBits (zero back const : Bool) (a bits : Nat) (body : Mem → Nat → Mem) (m : Mem) : Start → Option (List Nat × Mem)
  | .all => do iterLoop bits (step zero back const a bits) body (bits + 1) m (← begin_ zero back const a bits m)
  | .from x => iterLoop bits (step zero back const a bits) body (bits + 1) m x
  | .after x => do iterLoop bits (step zero back const a bits) body (bits + 1) m (← step zero back const a bits m x)

/-! ## Specification -/

/-- The positions with the wanted value strictly between the two limits, ascending. -/
def between (zero : Bool) (m : Mem) (a lo hi : Nat) : List Nat := (List.range hi).filter fun i => decide (lo ≤ i) && (bitOf m a i != zero)

/-- What an iteration is to visit. A position outside of the bitmap starts nothing, downwards except at its very end; the position after the largest
`unsigned int` is 0. -/
def wanted (zero back : Bool) (m : Mem) (a bits : Nat) : Start → List Nat
  | .all => if back then (between zero m a 0 bits).reverse else between zero m a 0 bits
  | .from x => if bits ≤ x then [] else if back then x :: (between zero m a 0 x).reverse else x :: between zero m a (x + 1) bits
  | .after x =>
    if back then if bits < x then [] else (between zero m a 0 x).reverse
    else between zero m a ((x + 1) % 2 ^ 32) bits

/-- A body that leaves the bits still to be visited alone, and the bitmap where it is. -/
def Ahead (back : Bool) (a bits : Nat) (body : Mem → Nat → Mem) : Prop :=
  ∀ m i, i < bits → (body m i).length = m.length ∧ ∀ j, j < bits → (if back then j < i else i < j) → bitOf (body m i) a j = bitOf m a j

/-- The cases that meet the searches which fail for a known size of 64. -/
def Broken (zero back const : Bool) (bits : Nat) (start : Start) : Prop :=
  zero = true ∧ const = true ∧ bits = 64 ∧ (start = .all ∨ (back = true ∧ start = .after 64))

/-! ## Proofs -/

theorem between_congr {zero : Bool} {m m' : Mem} {a lo hi : Nat} (h : ∀ j, lo ≤ j → j < hi → bitOf m' a j = bitOf m a j) :
    between zero m' a lo hi = between zero m a lo hi := by
  unfold between
  apply List.filter_congr
  intro j hj
  rw [List.mem_range] at hj
  by_cases hl : lo ≤ j
  · simp only [hl, decide_true, Bool.true_and, h j hl hj]
  · simp [hl]

theorem between_nil {zero : Bool} {m : Mem} {a lo hi : Nat} (h : ∀ j, lo ≤ j → j < hi → (bitOf m a j != zero) = false) : between zero m a lo hi = [] := by
  unfold between
  rw [List.filter_eq_nil_iff]
  intro j hj
  rw [List.mem_range] at hj
  by_cases hl : lo ≤ j
  · rw [h j hl hj]; simp
  · simp [hl]

theorem range_split {i hi : Nat} (h : i < hi) : List.range hi = List.range i ++ i :: List.range' (i + 1) (hi - (i + 1)) := by
  rw [List.range_eq_range', List.range_eq_range']
  refine Eq.trans (congrArg (List.range' 0 ·) (show hi = i + ((hi - (i + 1)) + 1) by omega)) ?_
  rw [← List.range'_append_1, List.range'_succ]
  simp

theorem between_cons {zero : Bool} {m : Mem} {a lo hi i : Nat} (h1 : lo ≤ i) (h2 : i < hi) (h3 : (bitOf m a i != zero) = true)
    (h4 : ∀ j, lo ≤ j → j < i → (bitOf m a j != zero) = false) : between zero m a lo hi = i :: between zero m a (i + 1) hi := by
  have e1 := between_nil h4
  have e2 : between zero m a (i + 1) i = [] := between_nil (fun j h h' => by omega)
  unfold between at e1 e2 ⊢
  rw [range_split h2, List.filter_append, List.filter_append, e1, e2, List.nil_append, List.nil_append, List.filter_cons, List.filter_cons,
    if_pos (by simp only [h1, h3, decide_true, Bool.true_and]), if_neg (by simp; omega)]
  congr 1
  apply List.filter_congr
  intro j hj
  rw [List.mem_range'_1] at hj
  simp [show lo ≤ j by omega, show i + 1 ≤ j by omega]

theorem between_snoc {zero : Bool} {m : Mem} {a hi i : Nat} (h2 : i < hi) (h3 : (bitOf m a i != zero) = true)
    (h4 : ∀ j, i < j → j < hi → (bitOf m a j != zero) = false) : between zero m a 0 hi = between zero m a 0 i ++ [i] := by
  unfold between
  rw [range_split h2, List.filter_append, List.filter_cons, if_pos (by simp [h3])]
  congr 1
  congr 1
  rw [List.filter_eq_nil_iff]
  intro j hj
  rw [List.mem_range'_1] at hj
  rw [h4 j (by omega) (by omega)]; simp

theorem loop_up {bits a : Nat} {zero : Bool} {step : Mem → Nat → Option Nat} {body : Mem → Nat → Mem} {n : Nat} (hb : Ahead false a bits body)
    (hs : ∀ m i, m.length = n → i < bits → ∃ r, step m i = some r ∧ FirstAt (fun j => bitOf m a j != zero) (i + 1) bits r) :
    ∀ (fuel : Nat) (m : Mem) (i lo : Nat), m.length = n → FirstAt (fun j => bitOf m a j != zero) lo bits i → bits - lo < fuel →
      iterLoop bits step body fuel m i = some (between zero m a lo bits, (between zero m a lo bits).foldl body m) := by
  intro fuel
  induction fuel with
  | zero => intro m i lo _ _ h; omega
  | succ fuel ih =>
    intro m i lo hn hf hl
    rw [iterLoop]
    rcases hf with ⟨h1, h2, h3, h4⟩ | ⟨h1, h2⟩
    · obtain ⟨hlen, hah⟩ := hb m i h2
      obtain ⟨r, e, hr⟩ := hs (body m i) i (hlen.trans hn) h2
      rw [if_pos h2]
      simp only [bind, Option.bind, e]
      rw [ih (body m i) r (i + 1) (hlen.trans hn) hr (by omega)]
      rw [between_congr (m := m) (m' := body m i) (fun j hj hj' => hah j hj' (by simp; omega)), between_cons h1 h2 h3 h4]
      rfl
    · subst h1
      rw [if_neg (by omega), between_nil h2]
      rfl

theorem loop_down {bits a : Nat} {zero : Bool} {step : Mem → Nat → Option Nat} {body : Mem → Nat → Mem} {n : Nat} (hb : Ahead true a bits body)
    (hs : ∀ m i, m.length = n → i < bits → ∃ r, step m i = some r ∧ LastAt (fun j => bitOf m a j != zero) i bits r) :
    ∀ (fuel : Nat) (m : Mem) (i hi : Nat), m.length = n → LastAt (fun j => bitOf m a j != zero) hi bits i → hi < fuel → hi ≤ bits →
      iterLoop bits step body fuel m i = some ((between zero m a 0 hi).reverse, (between zero m a 0 hi).reverse.foldl body m) := by
  intro fuel
  induction fuel with
  | zero => intro m i hi _ _ h; omega
  | succ fuel ih =>
    intro m i hi hn hf hl hle
    rw [iterLoop]
    rcases hf with ⟨h1, h3, h4⟩ | ⟨h1, h2⟩
    · obtain ⟨hlen, hah⟩ := hb m i (by omega)
      obtain ⟨r, e, hr⟩ := hs (body m i) i (hlen.trans hn) (by omega)
      rw [if_pos (by omega)]
      simp only [bind, Option.bind, e]
      rw [ih (body m i) r i (hlen.trans hn) hr (by omega) (by omega)]
      rw [between_congr (m := m) (m' := body m i) (fun j _ hj' => hah j (by omega) (by simpa using hj')), between_snoc h1 h3 h4, List.reverse_append]
      rfl
    · subst h1
      rw [if_neg (by omega), between_nil (fun j _ hj => h2 j hj)]
      rfl

theorem inside_len {m m' : Mem} {a bits : Nat} (h : m'.length = m.length) (ha : Inside m a bits) : Inside m' a bits := by
  unfold Inside at ha ⊢
  omega

theorem step_up {zero const : Bool} {m : Mem} {a bits : Nat} (x : Nat) (ha : Inside m a bits) (hb : bits ≤ 2 ^ 32 - 64) :
    ∃ r, step zero false const a bits m x = some r ∧ FirstAt (fun j => bitOf m a j != zero) ((x + 1) % 2 ^ 32) bits r := by
  cases zero
  · obtain ⟨r, e, h⟩ := find_next_bit const ((x + 1) % 2 ^ 32) ha hb
    exact ⟨r, e, h.congr (fun i => by simp)⟩
  · obtain ⟨r, e, h⟩ := find_next_zero const ((x + 1) % 2 ^ 32) ha hb
    exact ⟨r, e, h.congr (fun i => by simp)⟩

/-- Downwards, from a position that is at most one past the end. -/
theorem step_down {zero const : Bool} {m : Mem} {a bits x : Nat} (ha : Inside m a bits) (hb : bits ≤ 2 ^ 32 - 64)
    (hc : ¬(zero = true ∧ const = true ∧ bits = 64 ∧ x = 64)) (hx : x < 2 ^ 32) :
    ∃ r, step zero true const a bits m x = some r ∧ (x ≤ bits → LastAt (fun j => bitOf m a j != zero) x bits r) ∧ (bits < x → r = bits) := by
  have key : ∀ {p : Nat → Bool} {r : Nat}, ((x + (2 ^ 32 - 1)) % 2 ^ 32 < bits → LastAt p ((x + (2 ^ 32 - 1)) % 2 ^ 32 + 1) bits r) →
      (bits ≤ (x + (2 ^ 32 - 1)) % 2 ^ 32 → r = bits) → (x ≤ bits → LastAt p x bits r) ∧ (bits < x → r = bits) := by
    intro p r h1 h2
    by_cases h0 : x = 0
    · subst h0
      exact ⟨fun _ => Or.inr ⟨h2 (by omega), by omega⟩, by omega⟩
    · rw [show (x + (2 ^ 32 - 1)) % 2 ^ 32 = x - 1 by omega] at h1 h2
      rw [show x - 1 + 1 = x by omega] at h1
      exact ⟨fun h => h1 (by omega), fun h => h2 (by omega)⟩
  cases zero
  · obtain ⟨r, e, h1, h2⟩ := find_prev_bit const ((x + (2 ^ 32 - 1)) % 2 ^ 32) ha hb
    exact ⟨r, e, key (fun h => (h1 h).congr (fun i => by simp)) h2⟩
  · obtain ⟨r, e, h1, h2⟩ := find_prev_zero_partial const ((x + (2 ^ 32 - 1)) % 2 ^ 32) ha hb (fun hc1 hc2 hc3 => hc ⟨rfl, hc1, hc2, by omega⟩)
    exact ⟨r, e, key (fun h => (h1 h).congr (fun i => by simp)) h2⟩

theorem begin_up {zero const : Bool} {m : Mem} {a bits : Nat} (ha : Inside m a bits) (hb : bits ≤ 2 ^ 32 - 64)
    (hc : ¬(zero = true ∧ const = true ∧ bits = 64)) :
    ∃ r, begin_ zero false const a bits m = some r ∧ FirstAt (fun j => bitOf m a j != zero) 0 bits r := by
  cases zero
  · obtain ⟨r, e, h⟩ := find_first_bit const ha hb
    exact ⟨r, e, h.congr (fun i => by simp)⟩
  · obtain ⟨r, e, h⟩ := find_first_zero_partial const ha hb (fun h1 h2 => hc ⟨rfl, h1, h2⟩)
    exact ⟨r, e, h.congr (fun i => by simp)⟩

theorem begin_down {zero const : Bool} {m : Mem} {a bits : Nat} (ha : Inside m a bits)
    (hc : ¬(zero = true ∧ const = true ∧ bits = 64)) :
    ∃ r, begin_ zero true const a bits m = some r ∧ LastAt (fun j => bitOf m a j != zero) bits bits r := by
  cases zero
  · obtain ⟨r, e, h⟩ := find_last_bit const ha
    exact ⟨r, e, h.congr (fun i => by simp)⟩
  · obtain ⟨r, e, h⟩ := find_last_zero_partial const ha (fun h1 h2 => hc ⟨rfl, h1, h2⟩)
    exact ⟨r, e, h.congr (fun i => by simp)⟩

/-! ## Theorems -/

/-- C95: an iteration visits exactly the positions with the wanted value that its start leaves to it, in its direction, each once, whatever the body does to
bits already passed; the body runs on them in that order and nothing else changes memory. Not for the searches that fail for a size known to be 64. -/
theorem for_each_partial (zero back const : Bool) {a bits : Nat} {body : Mem → Nat → Mem} {m : Mem} {start : Start} (ha : Inside m a bits)
    (hb : bits ≤ 2 ^ 32 - 64) (hx : ∀ x, start = .from x ∨ start = .after x → x < 2 ^ 32) (hbody : Ahead back a bits body)
    (hc : ¬Broken zero back const bits start) :
    iterBits zero back const a bits body m start = some (wanted zero back m a bits start, (wanted zero back m a bits start).foldl body m) := by
  cases back with
  | false =>
    have hs : ∀ m' i, m'.length = m.length → i < bits →
        ∃ r, step zero false const a bits m' i = some r ∧ FirstAt (fun j => bitOf m' a j != zero) (i + 1) bits r := by
      intro m' i hl hi
      have := step_up (zero := zero) (const := const) i (inside_len hl ha) hb
      rwa [show (i + 1) % 2 ^ 32 = i + 1 by omega] at this
    cases start with
    | all =>
      obtain ⟨r, e, h⟩ := begin_up (zero := zero) (const := const) ha hb (fun h => hc ⟨h.1, h.2.1, h.2.2, Or.inl rfl⟩)
      simp only [iterBits, bind, Option.bind, e, wanted]
      rw [loop_up hbody hs (bits + 1) m r 0 rfl h (by omega)]
      rfl
    | «from» x =>
      simp only [iterBits, wanted]
      rw [iterLoop]
      by_cases h : bits ≤ x
      · rw [if_neg (by omega), if_pos h]; rfl
      · obtain ⟨hlen, hah⟩ := hbody m x (by omega)
        obtain ⟨r, e, hr⟩ := hs (body m x) x hlen (by omega)
        rw [if_pos (by omega), if_neg h]
        simp only [bind, Option.bind, e]
        rw [loop_up hbody hs bits (body m x) r (x + 1) hlen hr (by omega)]
        rw [between_congr (m := m) (m' := body m x) (fun j hj hj' => hah j hj' (by simp; omega))]
        rfl
    | after x =>
      obtain ⟨r, e, h⟩ := step_up (zero := zero) (const := const) x ha hb
      simp only [iterBits, bind, Option.bind, e, wanted]
      rw [loop_up hbody hs (bits + 1) m r _ rfl h (by omega)]
      rfl
  | true =>
    have hs : ∀ m' i, m'.length = m.length → i < bits →
        ∃ r, step zero true const a bits m' i = some r ∧ LastAt (fun j => bitOf m' a j != zero) i bits r := by
      intro m' i hl hi
      obtain ⟨r, e, h, -⟩ := step_down (zero := zero) (const := const) (x := i) (inside_len hl ha) hb (by omega) (by omega)
      exact ⟨r, e, h (by omega)⟩
    cases start with
    | all =>
      obtain ⟨r, e, h⟩ := begin_down (zero := zero) (const := const) ha (fun h => hc ⟨h.1, h.2.1, h.2.2, Or.inl rfl⟩)
      simp only [iterBits, bind, Option.bind, e, wanted]
      rw [loop_down hbody hs (bits + 1) m r bits rfl h (by omega) (by omega)]
      rfl
    | «from» x =>
      simp only [iterBits, wanted]
      rw [iterLoop]
      by_cases h : bits ≤ x
      · rw [if_neg (by omega), if_pos h]; rfl
      · obtain ⟨hlen, hah⟩ := hbody m x (by omega)
        obtain ⟨r, e, hr⟩ := hs (body m x) x hlen (by omega)
        rw [if_pos (by omega), if_neg h]
        simp only [bind, Option.bind, e]
        rw [loop_down hbody hs bits (body m x) r x hlen hr (by omega) (by omega)]
        rw [between_congr (m := m) (m' := body m x) (fun j _ hj' => hah j (by omega) (by simpa using hj'))]
        rfl
    | after x =>
      obtain ⟨r, e, h1, h2⟩ := step_down (zero := zero) (const := const) (x := x) ha hb
        (fun h => hc ⟨h.1, h.2.1, h.2.2.1, Or.inr ⟨rfl, by rw [h.2.2.2]⟩⟩) (hx x (Or.inr rfl))
      simp only [iterBits, bind, Option.bind, e, wanted, if_true]
      by_cases h : bits < x
      · rw [if_pos h, h2 h, iterLoop, if_neg (by omega)]; rfl
      · rw [if_neg h, loop_down hbody hs (bits + 1) m r x rfl (h1 (by omega)) (by omega) (by omega)]

/-- The positions visited, said without lists: ascending or descending, and a position is visited exactly if it is wanted. -/
theorem wanted_spec (zero back : Bool) (m : Mem) (a bits : Nat) :
    (wanted zero back m a bits .all).Pairwise (fun i j => if back then j < i else i < j) ∧
    ∀ i, i ∈ wanted zero back m a bits .all ↔ i < bits ∧ bitOf m a i = !zero := by
  have hp : (between zero m a 0 bits).Pairwise (· < ·) := List.pairwise_lt_range.filter _
  constructor
  · cases back
    · simpa [wanted] using hp
    · simpa [wanted, List.pairwise_reverse] using hp
  · intro i
    cases back <;> cases zero <;> simp [wanted, between]

/-- Disagreement: over the zero bits of a bitmap whose size is known to be 64 nothing is visited, although every bit is zero. -/
theorem for_each_zero_violated : ∃ (m : Mem) (back : Bool), Inside m 0 64 ∧
    iterBits true back true 0 64 (fun m _ => m) m .all = some ([], m) ∧ wanted true back m 0 64 .all ≠ [] := by
  refine ⟨[0#64], false, by unfold Inside; decide, by decide +kernel, by decide +kernel⟩

/-- A body that clears the bit it is given: the bitmap empties while it is walked. -/
example : iterBits false false false 0 70 (fun m i => (bitClr m 0 i).getD m) [0x8000000000000005#64, 0x2#64] .all = some ([0, 2, 63, 65], [0#64, 0#64]) ∧
    iterBits false true false 0 70 (fun m i => (bitClr m 0 i).getD m) [0x8000000000000005#64, 0x2#64] (.after 63) =
      some ([2, 0], [0x8000000000000000#64, 0x2#64]) ∧
    iterBits true false true 0 5 (fun m _ => m) [0x15#64] (.from 2) = some ([2, 3], [0x15#64]) := by decide +kernel

/-- Such a body is allowed, in either direction. -/
theorem ahead_clr (back : Bool) (a bits : Nat) : Ahead back a bits (fun m i => (bitClr m a i).getD m) := by
  intro m i _
  dsimp only
  by_cases h : a + i / 64 < m.length
  · obtain ⟨-, ⟨m', e, hl, hk⟩, -⟩ := single_bits h
    rw [e]
    refine ⟨hl, fun j _ hji => ?_⟩
    have e0 : ∀ m : Mem, bitOf m a j = bitOf m 0 (64 * a + j) := fun m => by
      unfold bitOf
      rw [show 0 + (64 * a + j) / 64 = a + j / 64 by omega, show (64 * a + j) % 64 = j % 64 by omega]
    show bitOf m' a j = bitOf m a j
    rw [e0, e0, hk, if_neg]
    cases back
    · simp at hji; omega
    · simp at hji; omega
  · have e : bitClr m a i = none := by
      unfold bitClr rd
      rw [List.getElem?_eq_none (by omega)]; rfl
    rw [e]
    exact ⟨rfl, fun _ _ _ => rfl⟩

end Bfdev.Bitmap

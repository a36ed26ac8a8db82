import Verif.Bloom.Props
/-!
C139: which pushes of a history a Bloom filter reports as new, and how many there can be.
-/
namespace Bfdev.Bloom

/-- The answers of a history of pushes: `false` is new. -/
def answers (hash : Hash) (b : Bloom) : List Nat → Option (List Bool × Bloom)
  | [] => some ([], b)
  | k :: ks => (push hash b k).bind fun r => (answers hash r.2 ks).map fun s => (r.1 :: s.1, s.2)

/-- The number of clear bits among the first `n`. -/
def clear (m : List Scan.Word) (n : Nat) : Nat := (List.range n).countP fun i => !bitAt m i

theorem slots_pow (hash : Hash) {b : Bloom} (h : Good b) (key : Nat) : ∀ i ∈ slots hash b key, i < 2 ^ Nat.log2 b.capacity := by
  intro i hi
  obtain ⟨k, h1, h2, h3, h4⟩ := pow_le_cap h
  simp only [slots, List.mem_map] at hi
  obtain ⟨f, -, rfl⟩ := hi
  obtain ⟨v, h5, h6⟩ := Jhash.hash64_range_partial (BitVec.zeroExtend 64 (hash f key)) k h2 (by omega)
  simp only [index, hashtblIndex, h1, Option.bind_some, h5, Option.map_some, Option.getD_some]
  have h7 : k ≤ Nat.log2 b.capacity := (Nat.le_log2 (by have := h.words; have := h.pos; omega)).2 h4
  exact Nat.lt_of_le_of_lt (Nat.mod_le _ _) (Nat.lt_of_lt_of_le h6 (Nat.pow_le_pow_right (by decide) h7))

theorem countP_lt {α : Type} {p q : α → Bool} : ∀ {l : List α} {x : α}, (∀ y, p y = true → q y = true) → x ∈ l → p x = false → q x = true →
    l.countP p + 1 ≤ l.countP q
  | y :: l, x, h, hx, h1, h2 => by
    rw [List.countP_cons, List.countP_cons]
    rcases List.mem_cons.1 hx with rfl | hx
    · rw [h1, h2, if_neg (by decide), if_pos rfl]
      have := List.countP_mono_left (l := l) (p := p) (q := q) fun y _ => h y
      omega
    · have := countP_lt h hx h1 h2
      have := h y
      cases hp : p y
      · rw [if_neg (by decide)]; split <;> omega
      · rw [this hp]; omega

theorem answers_ok (hash : Hash) : ∀ (ks : List Nat) {b : Bloom}, Good b →
    ∃ out b', answers hash b ks = some (out, b') ∧ out.length = ks.length ∧ out.count false ≤ clear b.bitmap (2 ^ Nat.log2 b.capacity) ∧
      (∀ i k : Nat, out[i]? = some false → ks[i]? = some k → (∃ s ∈ slots hash b k, bitAt b.bitmap s = false) ∧ ∀ j : Nat, j < i → ks[j]? ≠ some k)
  | [], b, _ => ⟨[], b, rfl, rfl, Nat.zero_le _, fun i k h => by simp at h⟩
  | key :: ks, b, h => by
    obtain ⟨b1, e1, c1, c2, g1, d1⟩ := push_eq hash h key
    obtain ⟨out, b2, e2, l2, n2, w2⟩ := answers_ok hash ks g1
    refine ⟨_, b2, by rw [answers, e1, Option.bind_some, e2]; rfl, by simp [l2], ?_, ?_⟩
    · rw [c1] at n2
      have hmono : ∀ i, (!bitAt b1.bitmap i) = true → (!bitAt b.bitmap i) = true := by
        intro i hi
        rw [d1] at hi
        cases hb : bitAt b.bitmap i
        · rfl
        · rw [hb] at hi; simp at hi
      cases ha : (slots hash b key).all fun i => bitAt b.bitmap i
      · obtain ⟨s, s1, s2⟩ := List.all_eq_false.1 ha
        have s2 : bitAt b.bitmap s = false := by simpa using s2
        rw [List.count_cons_self]
        have := countP_lt (l := List.range (2 ^ Nat.log2 b.capacity)) hmono (List.mem_range.2 (slots_pow hash h key s s1)) (by rw [d1]; simp [s1]) (by rw [s2]; rfl)
        unfold clear at *
        exact Nat.le_trans (Nat.succ_le_succ n2) this
      · rw [List.count_cons_of_ne (show true ≠ false by decide)]
        exact Nat.le_trans n2 (List.countP_mono_left fun i _ => hmono i)
    · intro i k hi hk
      cases i with
      | zero =>
        simp only [List.getElem?_cons_zero, Option.some.injEq] at hi hk
        subst hk
        obtain ⟨s, s1, s2⟩ := List.all_eq_false.1 hi
        exact ⟨⟨s, s1, by simpa using s2⟩, fun j hj => by omega⟩
      | succ i =>
        rw [List.getElem?_cons_succ] at hi hk
        obtain ⟨⟨s, s1, s2⟩, w⟩ := w2 i k hi hk
        rw [slots_congr hash ⟨c1, c2⟩] at s1
        rw [d1, Bool.or_eq_false_iff] at s2
        refine ⟨⟨s, s1, s2.1⟩, fun j hj => ?_⟩
        cases j with
        | zero =>
          rw [List.getElem?_cons_zero]
          intro e
          have := s2.2
          rw [Option.some.inj e] at this
          simp [s1] at this
        | succ j => rw [List.getElem?_cons_succ]; exact w j (by omega)

/-- **C139.** Of any history of pushes a filter reports as new only first pushes of a key, and no more than it has bits, the capacity rounded down
to a power of two. -/
theorem bloom_news (hash : Hash) {b : Bloom} (h : Good b) (ks : List Nat) :
    ∃ out b', answers hash b ks = some (out, b') ∧ out.length = ks.length ∧ out.count false ≤ 2 ^ Nat.log2 b.capacity ∧
      ∀ i k : Nat, out[i]? = some false → ks[i]? = some k → ∀ j : Nat, j < i → ks[j]? ≠ some k := by
  obtain ⟨out, b', e, l, n, w⟩ := answers_ok hash ks h
  refine ⟨out, b', e, l, Nat.le_trans n ?_, fun i k h1 h2 => (w i k h1 h2).2⟩
  exact Nat.le_trans List.countP_le_length (by rw [List.length_range]; exact Nat.le_refl _)

/-- **C139.** A filter that has reported that many is full: it says of every key that it was pushed. -/
theorem bloom_full (hash : Hash) {b b' : Bloom} (h : Good b) (ks : List Nat) {out : List Bool} (ha : answers hash b ks = some (out, b'))
    (hn : out.count false = 2 ^ Nat.log2 b.capacity) (key : Nat) : ∃ b2, answers hash b (ks ++ [key]) = some (out ++ [true], b2) := by
  have happ : ∀ (xs : List Nat) (b b' : Bloom) (out : List Bool), answers hash b xs = some (out, b') →
      answers hash b (xs ++ [key]) = (push hash b' key).map fun r => (out ++ [r.1], r.2) := by
    intro xs
    induction xs with
    | nil =>
      intro b b' out e
      cases e
      rw [List.nil_append, answers]
      cases push hash b key <;> rfl
    | cons x xs ih =>
      intro b b' out e
      rw [answers] at e
      obtain ⟨r, e1, e2⟩ := Option.bind_eq_some_iff.1 e
      obtain ⟨s, e3, e4⟩ := Option.map_eq_some_iff.1 e2
      cases e4
      rw [List.cons_append, answers, e1, Option.bind_some, ih r.2 s.2 s.1 e3]
      cases push hash s.2 key <;> rfl
  obtain ⟨o2, b2, e, l, n, -⟩ := answers_ok hash (ks ++ [key]) h
  have e' := happ ks b b' out ha
  rw [e] at e'
  obtain ⟨r, -, e4⟩ := Option.map_eq_some_iff.1 e'.symm
  have ho : o2 = out ++ [r.1] := (congrArg Prod.fst e4).symm
  have hc : o2.count false ≤ 2 ^ Nat.log2 b.capacity := Nat.le_trans n (Nat.le_trans List.countP_le_length (by rw [List.length_range]; exact Nat.le_refl _))
  refine ⟨b2, ?_⟩
  rw [e, ho]
  cases hr : r.1
  · rw [ho, hr, List.count_append, hn] at hc
    exact absurd hc (by simp)
  · rfl

/-- Not vacuous: two keys, one of them twice. -/
example : (answers (fun f k => BitVec.ofNat 32 (k * 5 + f)) (create 100 2) [1, 2, 1]).map (·.1) = some [false, false, true] := by decide +kernel

/-- Not vacuous: a filter of 64 bits and one hash function does get full. -/
example : (answers (fun _ k => BitVec.ofNat 32 k) (create 64 1) (List.range 160)).map (·.1.count false) = some (2 ^ Nat.log2 (create 64 1).capacity) := by
  decide +kernel

example : Good (create 64 1) := (create_good 64 1 (by decide) (by decide)).1

end Bfdev.Bloom

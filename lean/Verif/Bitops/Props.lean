import Verif.Bitops.Spec
/-!
C82: atomic single-bit operations in any schedule. C83: bit numbers by byte order.
-/
namespace Bfdev.Bitops
open Scan (Word)

theorem mask_bit (b j : Nat) (hj : j < 64) : (mask b).getLsbD j = decide (j = b % 64) := by
  have := Nat.mod_lt b (show 64 > 0 by decide)
  simp only [mask, BitVec.getLsbD_shiftLeft, BitVec.getLsbD_one]
  by_cases h : j = b % 64
  · subst h; simp [hj]
  · simp only [h, decide_false]
    by_cases h2 : j < b % 64
    · simp [h2]
    · simp; omega

theorem and_mask (w : Word) (b : Nat) : ((w &&& mask b) != 0) = w.getLsbD (b % 64) := by
  have hb := Nat.mod_lt b (show 64 > 0 by decide)
  by_cases h : w.getLsbD (b % 64) = true
  · rw [h]
    have : (w &&& mask b) ≠ 0 := by
      intro e
      have := congrArg (fun v => v.getLsbD (b % 64)) e
      simp [mask_bit b _ hb, h] at this
    simpa using this
  · have : (w &&& mask b) = 0 := by
      apply BitVec.eq_of_getLsbD_eq
      intro j hj
      rw [BitVec.getLsbD_and, mask_bit b j hj]
      by_cases h2 : j = b % 64
      · subst h2; simp [h]
      · simp [h2]
    rw [this]; simp [h]

/-- Each atomic instruction changes one bit of the word and hands out the word as it was. -/
theorem fetch_bit (c : Call) (b : Nat) (w : Word) (j : Nat) (hj : j < 64) :
    (c.fetch b w).1.getLsbD j = (if j = b % 64 then c.effect (w.getLsbD j) else w.getLsbD j) ∧ (c.fetch b w).2 = w := by
  have hm := mask_bit b j hj
  have key : ∀ v : Bool, (v = true → (w ||| mask b).getLsbD j = if j = b % 64 then true else w.getLsbD j) ∧ (v = false → (w &&& ~~~mask b).getLsbD j = if j = b % 64 then false else w.getLsbD j) := by
    intro v
    refine ⟨fun _ => ?_, fun _ => ?_⟩
    · rw [BitVec.getLsbD_or, hm]
      by_cases h : j = b % 64
      · rw [decide_eq_true h, if_pos h, Bool.or_true]
      · rw [decide_eq_false h, if_neg h, Bool.or_false]
    · rw [BitVec.getLsbD_and, BitVec.getLsbD_not, hm, decide_eq_true hj]
      by_cases h : j = b % 64
      · rw [decide_eq_true h, if_pos h]; simp
      · rw [decide_eq_false h, if_neg h]; simp
  have flip : (w ^^^ mask b).getLsbD j = if j = b % 64 then !w.getLsbD j else w.getLsbD j := by
    rw [BitVec.getLsbD_xor, hm]
    by_cases h : j = b % 64
    · rw [decide_eq_true h, if_pos h, Bool.xor_true]
    · rw [decide_eq_false h, if_neg h, Bool.xor_false]
  refine ⟨?_, ?_⟩
  · cases c with
    | clr => exact (key false).2 rfl
    | set => exact (key true).1 rfl
    | flip => exact flip
    | change v => cases v; exact (key false).2 rfl; exact (key true).1 rfl
    | test => simp [Call.fetch, Call.effect]
    | testClr => exact (key false).2 rfl
    | testSet => exact (key true).1 rfl
    | testFlip => exact flip
    | testChange v => cases v; exact (key false).2 rfl; exact (key true).1 rfl
  · cases c with
    | change v => cases v <;> rfl
    | testChange v => cases v <;> rfl
    | _ => rfl

theorem bits_finish (s : Sys) (t : Tid) (c : Call) (b : Nat) : bits (s.finish t c b).mem = upd (bits s.mem) b (c.effect (bits s.mem b)) := by
  funext i
  have hi := Nat.mod_lt i (show 64 > 0 by decide)
  simp only [bits, Sys.finish, upd, wordOf]
  by_cases hw : i / 64 = b / 64
  · rw [if_pos hw, (fetch_bit c b _ _ hi).1, hw]
    by_cases h : i % 64 = b % 64
    · have : i = b := by omega
      subst this; simp
    · rw [if_neg h, if_neg (by intro e; exact h (by rw [e]))]
  · rw [if_neg hw, if_neg (by intro e; exact hw (by rw [e]))]

theorem step_explains {m : Mem} {s s' : Sys} {t : Tid} {a : Act} (h : Explains (bits m) s.log (bits s.mem)) (e : step s t a = some s') :
    Explains (bits m) s'.log (bits s'.mem) := by
  have hfin : ∀ c b, Explains (bits m) (s.finish t c b).log (bits (s.finish t c b).mem) := fun c b =>
    ⟨bits s.mem, h, by
      show ((c.fetch b (s.mem (wordOf b))).2 &&& mask b != 0) = bits s.mem b
      rw [(fetch_bit c b _ 0 (by decide)).2, and_mask]; rfl, bits_finish s t c b⟩
  unfold step at e
  split at e
  · rename_i b _
    by_cases hz : s.mem (wordOf b) &&& mask b = 0
    · rw [if_pos hz] at e; cases e
      have hb : bits s.mem b = false := by
        have := and_mask (s.mem (wordOf b)) b
        rw [hz] at this; exact this.symm
      refine ⟨bits s.mem, h, hb.symm, ?_⟩
      funext i; simp only [upd, Call.effect]; split
      · rename_i hi; rw [hi, hb]
      · rfl
    · rw [if_neg hz] at e; cases e; exact h
  · rename_i b _
    by_cases hz : s.mem (wordOf b) &&& mask b ≠ 0
    · rw [if_pos hz] at e; cases e
      have hb : bits s.mem b = true := by
        have := and_mask (s.mem (wordOf b)) b
        rw [bne_iff_ne.2 hz] at this
        exact this.symm
      refine ⟨bits s.mem, h, hb.symm, ?_⟩
      funext i; simp only [upd, Call.effect]; split
      · rename_i hi; rw [hi, hb]
      · rfl
    · rw [if_neg hz] at e; cases e; exact h
  · cases e; exact hfin _ _
  · cases e; exact hfin _ _
  · cases e

/-- **C82**: in every schedule of any number of threads the finished calls, in the order in which they took effect (each inside its own duration), are
explained by one array of bits: each call finds its bit as the calls before it left it, and changes nothing but that bit. -/
theorem atomic_linearizable (m : Mem) : ∀ (l : List (Tid × Act)) {s : Sys}, run (init m) l = some s → Explains (bits m) s.log (bits s.mem) := by
  have gen : ∀ (l : List (Tid × Act)) {s0 s : Sys}, Explains (bits m) s0.log (bits s0.mem) → run s0 l = some s → Explains (bits m) s.log (bits s.mem) := by
    intro l
    induction l with
    | nil => intro s0 s h e; cases e; exact h
    | cons x l ih =>
      obtain ⟨t, a⟩ := x
      intro s0 s h e
      obtain ⟨s1, e1, e2⟩ := Option.bind_eq_some_iff.1 e
      exact ih (step_explains h e1) e2
  intro l s e
  exact gen l (s0 := init m) (show bits m = bits m from rfl) e

/-- No update is lost: what becomes of a bit depends only on the calls for that bit, in their order. -/
theorem atomic_final (m : Mem) (l : List (Tid × Act)) {s : Sys} (h : run (init m) l = some s) (i : Nat) :
    bits s.mem i = ((s.log.filter (fun x => x.2.bit == i)).map (fun x => x.2.call)).foldr (fun c v => c.effect v) (bits m i) := by
  have key : ∀ (L : List (Tid × Ev)) (B : Nat → Bool), Explains (bits m) L B → B i = ((L.filter (fun x => x.2.bit == i)).map (fun x => x.2.call)).foldr (fun c v => c.effect v) (bits m i) := by
    intro L
    induction L with
    | nil => intro B hB; rw [show B = bits m from hB]; rfl
    | cons x L ih =>
      obtain ⟨t, e⟩ := x
      rintro B ⟨B1, h1, _, rfl⟩
      by_cases hb : e.bit = i
      · rw [List.filter_cons_of_pos (by simp [hb]), List.map_cons, List.foldr_cons, ← ih B1 h1, upd, if_pos hb.symm, hb]
      · rw [List.filter_cons_of_neg (by simp [hb]), ← ih B1 h1, upd, if_neg (fun h => hb h.symm)]
  exact key _ _ (atomic_linearizable m l h)

/-- The calls that found bit `i` clear and set it. -/
def wins (i : Nat) (L : List (Tid × Ev)) : Nat := L.countP (fun x => x.2.bit == i && x.2.call == .testSet && !x.2.old)
/-- The calls for bit `i` that clear it. -/
def clears (i : Nat) (L : List (Tid × Ev)) : Nat := L.countP (fun x => x.2.bit == i && (x.2.call == .clr || x.2.call == .testClr))

/-- Used as a lock: if the calls for a bit, initially clear, are tests-and-sets, clears and tests, then at most one more of the first has won than the
bit was cleared; and if it was never cleared and somebody tried, exactly one has won. -/
theorem test_set_exclusive (m : Mem) (l : List (Tid × Act)) {s : Sys} (h : run (init m) l = some s) (i : Nat) (h0 : bits m i = false)
    (hc : ∀ x ∈ s.log, x.2.bit = i → x.2.call = .testSet ∨ x.2.call = .clr ∨ x.2.call = .testClr ∨ x.2.call = .test) :
    wins i s.log ≤ clears i s.log + 1 ∧ (clears i s.log = 0 → (∃ x ∈ s.log, x.2.bit = i ∧ x.2.call = .testSet) → wins i s.log = 1 ∧ bits s.mem i = true) := by
  have key : ∀ (L : List (Tid × Ev)) (B : Nat → Bool), (∀ x ∈ L, x.2.bit = i → x.2.call = .testSet ∨ x.2.call = .clr ∨ x.2.call = .testClr ∨ x.2.call = .test) → Explains (bits m) L B →
      wins i L + (if B i then 0 else 1) ≤ clears i L + 1 ∧ (clears i L = 0 → wins i L = if B i then 1 else 0) ∧ (clears i L = 0 → (∃ x ∈ L, x.2.bit = i ∧ x.2.call = .testSet) → B i = true) := by
    clear hc
    intro L
    induction L with
    | nil => intro B _ hB; rw [show B = bits m from hB, h0]; simp [wins, clears]
    | cons x L ih =>
      obtain ⟨t, c, b, o⟩ := x
      intro B hL hB
      obtain ⟨B1, h1, h2, hB2⟩ := hB
      subst hB2
      obtain ⟨i1, i2, i3⟩ := ih B1 (fun x hx => hL x (List.mem_cons_of_mem _ hx)) h1
      simp only at h2
      have hw : wins i ((t, ⟨c, b, o⟩) :: L) = wins i L + if (b == i && c == .testSet && !o) = true then 1 else 0 := List.countP_cons
      have hcl : clears i ((t, ⟨c, b, o⟩) :: L) = clears i L + if (b == i && (c == .clr || c == .testClr)) = true then 1 else 0 := List.countP_cons
      have hex : (∃ x ∈ ((t, ⟨c, b, o⟩) :: L : List (Tid × Ev)), x.2.bit = i ∧ x.2.call = .testSet) ↔ (b = i ∧ c = .testSet) ∨ ∃ x ∈ L, x.2.bit = i ∧ x.2.call = .testSet := by
        simp only [List.mem_cons]
        constructor
        · rintro ⟨x, rfl | hx, hy⟩
          · exact Or.inl hy
          · exact Or.inr ⟨x, hx, hy⟩
        · rintro (hy | ⟨x, hx, hy⟩)
          · exact ⟨_, Or.inl rfl, hy⟩
          · exact ⟨x, Or.inr hx, hy⟩
      rw [hw, hcl, hex]
      generalize wins i L = W at *
      generalize clears i L = C at *
      by_cases hb : b = i
      · subst hb; subst h2
        have := hL (t, ⟨c, b, B1 b⟩) List.mem_cons_self rfl
        simp only at this
        rcases this with rfl | rfl | rfl | rfl <;> cases hB : B1 b <;> simp [hB, upd, Call.effect] at i1 i2 i3 ⊢ <;> grind
      · have hb' : (b == i) = false := by simpa using hb
        simp only [hb', Bool.false_and, upd, if_neg (fun h => hb h.symm : ¬ i = b), hb, false_and, false_or]
        exact ⟨i1, i2, i3⟩
  obtain ⟨k1, k2, k3⟩ := key _ _ hc (atomic_linearizable m l h)
  refine ⟨by omega, fun hz hx => ?_⟩
  have := k3 hz hx
  exact ⟨by rw [k2 hz, this]; rfl, this⟩

/-- Every call ends after at most two steps of its own, whatever the other threads do: the first step ends it or leaves it where the second ends it, and
steps of other threads do not touch it. -/
theorem atomic_wait_free (s : Sys) (t : Tid) :
    (s.loc t = none → ∀ c b, ∃ s', step s t (.call c b) = some s' ∧ (s'.loc t = some (c, b) ∨ s'.loc t = none ∧ ∃ o, s'.log = (t, ⟨c, b, o⟩) :: s.log)) ∧
    (∀ c b, s.loc t = some (c, b) → ∃ s' o, step s t .go = some s' ∧ s'.loc t = none ∧ s'.log = (t, ⟨c, b, o⟩) :: s.log) ∧
    (∀ u a s', u ≠ t → step s u a = some s' → s'.loc t = s.loc t) := by
  refine ⟨fun h c b => ?_, fun c b h => ?_, fun u a s' hu e => ?_⟩
  · unfold step
    rw [h]
    cases c with
    | testClr =>
      by_cases hz : s.mem (wordOf b) &&& mask b = 0
      · exact ⟨_, if_pos hz, Or.inr ⟨h, _, rfl⟩⟩
      · exact ⟨_, if_neg hz, Or.inl (by simp [upd])⟩
    | testSet =>
      by_cases hz : s.mem (wordOf b) &&& mask b ≠ 0
      · exact ⟨_, if_pos hz, Or.inr ⟨h, _, rfl⟩⟩
      · exact ⟨_, if_neg hz, Or.inl (by simp [upd])⟩
    | _ => exact ⟨_, rfl, Or.inr ⟨by simp [Sys.finish, upd], _, rfl⟩⟩
  · refine ⟨s.finish t c b, _, ?_, by simp [Sys.finish, upd], rfl⟩
    unfold step; rw [h]
  · unfold step at e
    split at e
    · split at e <;> cases e <;> simp [upd, Ne.symm hu]
    · split at e <;> cases e <;> simp [upd, Ne.symm hu]
    · cases e; simp [Sys.finish, upd, Ne.symm hu]
    · cases e; simp [Sys.finish, upd, Ne.symm hu]
    · cases e

/-- Two threads that test and set the same bit at the same time: one wins. A third clears another bit of the word meanwhile; nothing is lost. -/
example : ((run (init fun _ => 2#64) [(0, .call .testSet 3), (1, .call .testSet 3), (2, .call .clr 1), (1, .go), (0, .go)]).map fun s => (s.log, s.mem 0)) =
    some ([(0, ⟨.testSet, 3, true⟩), (1, ⟨.testSet, 3, false⟩), (2, ⟨.clr, 1, true⟩)], 8#64) := by decide +kernel
/-- The same schedule meets the hypotheses of `test_set_exclusive`. -/
example : bits (fun _ => 2#64) 3 = false ∧ ∀ x ∈ ([(0, ⟨.testSet, 3, true⟩), (1, ⟨.testSet, 3, false⟩), (2, ⟨.clr, 1, true⟩)] : List (Tid × Ev)), x.2.bit = 3 →
    x.2.call = .testSet ∨ x.2.call = .clr ∨ x.2.call = .testClr ∨ x.2.call = .test := by decide

/-! ### Byte order -/

theorem load_bit (e : Big) (m : Bytes) (w j : Nat) (hj : j < 64) : (load e m w).getLsbD j = (m (addr e w (j / 8))).getLsbD (j % 8) := by
  have : j / 8 = 0 ∨ j / 8 = 1 ∨ j / 8 = 2 ∨ j / 8 = 3 ∨ j / 8 = 4 ∨ j / 8 = 5 ∨ j / 8 = 6 ∨ j / 8 = 7 := by omega
  obtain ⟨r, hr⟩ : ∃ r, r = j % 8 := ⟨_, rfl⟩
  have hr8 : r < 8 := by omega
  have e' : j = 8 * (j / 8) + r := by omega
  rw [← hr]
  simp only [load, BitVec.getLsbD_append]
  rcases this with h | h | h | h | h | h | h | h <;> rw [h] at e' ⊢ <;> subst e' <;> simp (disch := omega) only [if_pos, if_neg] <;> congr 1 <;> omega

theorem store_bit (e : Big) (m : Bytes) (w : Nat) (v : Word) (a j : Nat) (hj : j < 8) :
    (store e m w v a).getLsbD j = if a / 8 = w then v.getLsbD ((8 * if e then 7 - a % 8 else a % 8) + j) else (m a).getLsbD j := by
  unfold store
  split
  · simp [BitVec.getLsbD_extractLsb', hj]
  · rfl

/-- The byte that holds bit `n` of an array of words. -/
def byteOf (e : Big) (n : Nat) : Nat := 8 * (n / 64) + if e then 7 - n % 64 / 8 else n % 64 / 8

theorem bitOp_bit (e : Big) (c : Call) (m : Bytes) (n a j : Nat) (hj : j < 8) :
    (((bitOp e c m n).1 a).getLsbD j = if a = byteOf e n ∧ j = n % 8 then c.effect ((m a).getLsbD j) else (m a).getLsbD j) ∧
    (bitOp e c m n).2 = (m (byteOf e n)).getLsbD (n % 8) := by
  have hn := Nat.mod_lt n (show 64 > 0 by decide)
  have ha := Nat.mod_lt a (show 8 > 0 by decide)
  constructor
  · simp only [bitOp]
    rw [store_bit _ _ _ _ _ _ hj]
    by_cases hw : a / 8 = wordOf n
    · rw [if_pos hw, (fetch_bit c n _ _ (by cases e <;> simp <;> omega)).1, load_bit _ _ _ _ (by cases e <;> simp <;> omega)]
      have hA : addr e (wordOf n) (((8 * if e then 7 - a % 8 else a % 8) + j) / 8) = a := by
        simp only [addr, ← hw]; cases e <;> simp <;> omega
      have hB : ((8 * if e then 7 - a % 8 else a % 8) + j) % 8 = j := by omega
      rw [hA, hB]
      have hiff : ((8 * if e then 7 - a % 8 else a % 8) + j = n % 64) ↔ (a = byteOf e n ∧ j = n % 8) := by
        simp only [wordOf] at hw
        simp only [byteOf]; cases e <;> simp <;> omega
      simp only [hiff]
    · rw [if_neg hw, if_neg]
      rintro ⟨h1, _⟩
      apply hw
      rw [h1]; simp only [byteOf, wordOf]; cases e <;> simp <;> omega
  · simp only [bitOp]
    rw [(fetch_bit c n _ 0 (by decide)).2, and_mask, load_bit _ _ _ _ hn]
    have h1 : n % 64 % 8 = n % 8 := by omega
    rw [h1]; rfl

theorem swizzle (n : Nat) : n ^^^ (63 &&& (2 ^ 32 - 1 - 7)) = 64 * (n / 64) + (8 * (7 - n % 64 / 8) + n % 8) := by
  have h1 : (63 &&& (2 ^ 32 - 1 - 7)) = 56 := by decide
  have h2 : (n ^^^ 56) / 2 ^ 6 = n / 64 := by rw [Nat.xor_div_two_pow]; simp
  have h3 : (n ^^^ 56) % 2 ^ 6 = (n % 64) ^^^ 56 := by rw [Nat.xor_mod_two_pow]
  have h4 : ∀ r : Fin 64, r.val ^^^ 56 = 8 * (7 - r.val / 8) + r.val % 8 := by decide
  have h5 := h4 ⟨n % 64, Nat.mod_lt _ (by decide)⟩
  rw [h1]
  simp only at h5
  have : n % 64 % 8 = n % 8 := by omega
  have h6 := Nat.div_add_mod (n ^^^ 56) (2 ^ 6)
  rw [h2, h3, h5, this] at h6
  exact h6.symm

/-- **C83**: the operations named `_le` act, on machines of either byte order, on bit `n % 8` of byte `n / 8` and on nothing else, and hand out what
that bit was. -/
theorem le_bit (e : Big) (c : Call) (m : Bytes) (n a j : Nat) (hj : j < 8) :
    (((bitOpLe e c m n).1 a).getLsbD j = if a = n / 8 ∧ j = n % 8 then c.effect ((m a).getLsbD j) else (m a).getLsbD j) ∧
    (bitOpLe e c m n).2 = (m (n / 8)).getLsbD (n % 8) := by
  have h1 : byteOf e (n ^^^ leSwizzle e) = n / 8 ∧ (n ^^^ leSwizzle e) % 8 = n % 8 := by
    cases e
    · have : n ^^^ leSwizzle false = n := Nat.xor_zero n
      rw [this]; simp only [byteOf]; simp; omega
    · have : n ^^^ leSwizzle true = _ := swizzle n
      rw [this]; simp only [byteOf]; simp; omega
  have := bitOp_bit e c m (n ^^^ leSwizzle e) a j hj
  rw [h1.1, h1.2] at this
  exact this

/-- The operations named `_be` act, on machines of either byte order, on the byte in which a big-endian machine keeps bit `n` of an array of words. -/
theorem be_bit (e : Big) (c : Call) (m : Bytes) (n a j : Nat) (hj : j < 8) :
    (((bitOpBe e c m n).1 a).getLsbD j = if a = 8 * (n / 64) + (7 - n % 64 / 8) ∧ j = n % 8 then c.effect ((m a).getLsbD j) else (m a).getLsbD j) ∧
    (bitOpBe e c m n).2 = (m (8 * (n / 64) + (7 - n % 64 / 8))).getLsbD (n % 8) := by
  have h1 : byteOf e (n ^^^ beSwizzle e) = 8 * (n / 64) + (7 - n % 64 / 8) ∧ (n ^^^ beSwizzle e) % 8 = n % 8 := by
    cases e
    · have : n ^^^ beSwizzle false = _ := swizzle n
      rw [this]; simp only [byteOf]; simp; omega
    · have : n ^^^ beSwizzle true = n := Nat.xor_zero n
      rw [this]; simp only [byteOf]; simp
  have := bitOp_bit e c m (n ^^^ beSwizzle e) a j hj
  rw [h1.1, h1.2] at this
  exact this

/-- Bit 70 in memory full of zeros: byte 8, and byte 15 for the big-endian numbering. -/
example : ((bitOpLe false .set (fun _ => 0) 70).1 8, (bitOpBe false .testSet (fun _ => 0) 70).1 15, (bitOpLe true .set (fun _ => 0) 70).1 8) = (0x40#8, 0x40#8, 0x40#8) := by decide +kernel

end Bfdev.Bitops

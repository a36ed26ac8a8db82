import Verif.Crc.Props
import Verif.Prandom.Lemmas
/-!
C130 and C131: which errors of two bits and of an odd number of bits the checksums detect.
-/
namespace Bfdev.Crc
open Prandom (ap powBits val prod IsPrime)

/-- The bits of two messages of the same length differ at the positions `i` and `j` and nowhere else. -/
def TwoBits (bits : Byte → List Bool) (m1 m2 : List Byte) (i j : Nat) : Prop :=
  m1.length = m2.length ∧ ∀ k, (m1.flatMap bits)[k]? ≠ (m2.flatMap bits)[k]? ↔ k = i ∨ k = j

/-- The number of positions at which the bits of two messages differ. -/
def wrong (bits : Byte → List Bool) (m1 m2 : List Byte) : Nat := ((m1.flatMap bits).zip (m2.flatMap bits)).countP fun p => p.1 != p.2

/-- Errors of two bits, at distance `j - i`, go unnoticed exactly if the distance is a multiple of `N`; whatever the initial value and the
addresses. -/
def TwoBitDistance {w : Nat} (f : Fn w) (N : Nat) (bits : Byte → List Bool) : Prop :=
  ∀ m1 m2 r1 r2 a1 a2 c i j, i < j → TwoBits bits m1 m2 i j → (f a1 (m1 ++ r1) m1.length c = f a2 (m2 ++ r2) m2.length c ↔ N ∣ j - i)

/-- Messages of the same length that differ in an odd number of bits get different values, whatever the initial value and the addresses. -/
def DetectsOdd {w : Nat} (f : Fn w) (bits : Byte → List Bool) : Prop :=
  ∀ m1 m2 r1 r2 a1 a2 c, m1.length = m2.length → wrong bits m1 m2 % 2 = 1 → f a1 (m1 ++ r1) m1.length c ≠ f a2 (m2 ++ r2) m2.length c

/-! ### Registers -/

/-- A register: what it does with a bit, and with a clear bit. -/
structure Reg {w : Nat} (ser : BitVec w → Bool → BitVec w) (sh : BitVec w → BitVec w) (poly : BitVec w) : Prop where
  lin : Linear sh
  bit : ∀ c b, ser c b = sh c ^^^ if b = true then poly else 0

theorem reg_le {w : Nat} (poly : BitVec w) : Reg (serialLe poly) (shiftLe poly) poly :=
  ⟨linear_shiftLe poly, fun c b => by
    unfold serialLe shiftLe
    cases c.getLsbD 0 <;> cases b <;> simp [BitVec.xor_assoc]⟩

theorem reg_be {w : Nat} (poly : BitVec w) : Reg (serialBe poly) (shiftBe poly) poly :=
  ⟨linear_shiftBe poly, fun c b => by
    unfold serialBe shiftBe
    cases c.msb <;> cases b <;> simp [BitVec.xor_assoc]⟩

theorem xor4 {w : Nat} (a b c d : BitVec w) : (a ^^^ b) ^^^ (c ^^^ d) = (a ^^^ c) ^^^ (b ^^^ d) := by
  rw [BitVec.xor_assoc, ← BitVec.xor_assoc b, BitVec.xor_comm b c, BitVec.xor_assoc c, ← BitVec.xor_assoc]

/-- The difference of two runs is the run over the difference. -/
theorem run_diff {w : Nat} {ser : BitVec w → Bool → BitVec w} {sh : BitVec w → BitVec w} {poly : BitVec w} (h : Reg ser sh poly) :
    ∀ (l1 l2 : List Bool) (c1 c2 : BitVec w), l1.length = l2.length →
    l1.foldl ser c1 ^^^ l2.foldl ser c2 = (List.zipWith (fun a b => a != b) l1 l2).foldl ser (c1 ^^^ c2)
  | [], [], _, _, _ => rfl
  | [], _ :: _, _, _, e => by simp at e
  | _ :: _, [], _, _, e => by simp at e
  | a :: l1, b :: l2, c1, c2, e => by
    rw [List.foldl_cons, List.foldl_cons, List.zipWith_cons_cons, List.foldl_cons, run_diff h l1 l2 _ _ (by simpa using e)]
    congr 1
    rw [h.bit, h.bit, h.bit, h.lin, xor4]
    congr 1
    cases a <;> cases b <;> simp

theorem eq_iff_xor {w : Nat} {x y : BitVec w} : x = y ↔ x ^^^ y = 0#w := by
  constructor
  · rintro rfl; exact BitVec.xor_self
  · intro h
    have h3 : x ^^^ (x ^^^ y) = x := by rw [h, BitVec.xor_zero]
    rw [xor_cancel] at h3
    exact h3.symm

/-- Two runs from the same value agree exactly if the difference of the bits leads from zero to zero. -/
theorem run_eq_iff {w : Nat} {ser : BitVec w → Bool → BitVec w} {sh : BitVec w → BitVec w} {poly : BitVec w} (h : Reg ser sh poly) (l1 l2 : List Bool) (c : BitVec w)
    (hl : l1.length = l2.length) : l1.foldl ser c = l2.foldl ser c ↔ (List.zipWith (fun a b => a != b) l1 l2).foldl ser 0#w = 0#w := by
  rw [eq_iff_xor, run_diff h l1 l2 c c hl, BitVec.xor_self]

theorem run_zeros {w : Nat} {ser : BitVec w → Bool → BitVec w} {sh : BitVec w → BitVec w} {poly : BitVec w} (h : Reg ser sh poly) :
    ∀ (n : Nat) (c : BitVec w), (List.replicate n false).foldl ser c = iter sh n c
  | 0, _ => rfl
  | n + 1, c => by
    rw [List.replicate_succ, List.foldl_cons, run_zeros h n, iter, h.bit, if_neg (by simp), show (0 : BitVec w) = 0#w from rfl, BitVec.xor_zero]

theorem iter_zero {w : Nat} {sh : BitVec w → BitVec w} (h : Linear sh) : ∀ n, iter sh n 0#w = 0#w
  | 0 => rfl
  | n + 1 => by rw [iter, show sh 0#w = 0#w from h.zero, iter_zero h n]

/-- Two set bits. -/
theorem run_two {w : Nat} {ser : BitVec w → Bool → BitVec w} {sh : BitVec w → BitVec w} {poly : BitVec w} (h : Reg ser sh poly)
    (hi : ∀ x y, sh x = sh y → x = y) (i d r : Nat) :
    (List.replicate i false ++ true :: (List.replicate d false ++ true :: List.replicate r false)).foldl ser 0#w = 0#w ↔ iter sh (d + 1) poly = poly := by
  rw [List.foldl_append, run_zeros h, iter_zero h.lin, List.foldl_cons, List.foldl_append, run_zeros h, List.foldl_cons, run_zeros h]
  have e1 : ser 0#w true = poly := by
    rw [h.bit, if_pos rfl, show sh 0#w = 0#w from h.lin.zero, BitVec.zero_xor]
  have e2 : ser (iter sh d poly) true = iter sh (d + 1) poly ^^^ poly := by rw [h.bit, if_pos rfl, iter_succ']
  rw [e1, e2]
  constructor
  · intro e
    have := iter_inj hi r _ 0#w (e.trans (iter_zero h.lin r).symm)
    exact eq_iff_xor.2 this
  · intro e
    rw [e, BitVec.xor_self, iter_zero h.lin]

theorem flat_length (bits : Byte → List Bool) (hb : ∀ d, (bits d).length = 8) (m : List Byte) : (m.flatMap bits).length = 8 * m.length := by
  induction m with
  | nil => rfl
  | cons d m ih => rw [List.flatMap_cons, List.length_append, hb, ih, List.length_cons]; omega

theorem bitsLe_length (d : Byte) : (bitsLe d).length = 8 := by simp [bitsLe]
theorem bitsBe_length (d : Byte) : (bitsBe d).length = 8 := by simp [bitsBe]

/-- The difference of two messages that differ in two bits. -/
theorem two_diff {bits : Byte → List Bool} (hb : ∀ d, (bits d).length = 8) {m1 m2 : List Byte} {i j : Nat} (hij : i < j) (h : TwoBits bits m1 m2 i j) :
    (m1.flatMap bits).length = (m2.flatMap bits).length ∧ ∃ r, List.zipWith (fun a b => a != b) (m1.flatMap bits) (m2.flatMap bits) =
      List.replicate i false ++ true :: (List.replicate (j - i - 1) false ++ true :: List.replicate r false) := by
  obtain ⟨hl, h⟩ := h
  have hl' : (m1.flatMap bits).length = (m2.flatMap bits).length := by rw [flat_length bits hb, flat_length bits hb, hl]
  generalize m1.flatMap bits = l1 at *
  generalize m2.flatMap bits = l2 at *
  have hj : j < l1.length := by
    refine Nat.not_le.1 fun hge => ?_
    have := (h j).2 (Or.inr rfl)
    rw [List.getElem?_eq_none hge, List.getElem?_eq_none (by omega)] at this
    exact this rfl
  refine ⟨hl', l1.length - j - 1, List.ext_getElem (by simp; omega) fun k h1 h2 => ?_⟩
  have hk1 : k < l1.length := by simp at h1; omega
  have hk2 : k < l2.length := by omega
  have hk := h k
  rw [List.getElem?_eq_getElem hk1, List.getElem?_eq_getElem hk2, ne_eq, Option.some.injEq] at hk
  rw [List.getElem_zipWith]
  have hb' : (l1[k] != l2[k]) = decide (k = i ∨ k = j) := by
    by_cases hh : k = i ∨ k = j
    · rw [decide_eq_true hh]; simpa using hk.2 hh
    · rw [decide_eq_false hh]; simpa using fun e => hh (hk.1 e)
  rw [hb']
  simp only [List.getElem_append, List.getElem_cons, List.length_replicate, List.getElem_replicate]
  split
  · simp; omega
  · split
    · simp; omega
    · split
      · simp; omega
      · split
        · simp; omega
        · simp; omega

/-! ### Periods -/

theorem iter_eq {α : Type} (f : α → α) : ∀ n x, iter f n x = Prandom.iter f n x
  | 0, _ => rfl
  | n + 1, x => by
    rw [iter, iter_eq f n]
    rfl

/-- The matrix of a register on a clear bit. -/
def matrix {w : Nat} (sh : BitVec w → BitVec w) : List Nat := (List.range w).map fun i => (sh (BitVec.ofNat w (2 ^ i))).toNat

theorem ap_matrix {w : Nat} {sh : BitVec w → BitVec w} (h : Linear sh) (x : BitVec w) : ap (matrix sh) x.toNat = (sh x).toNat := by
  have e := Prandom.ap_linear (fun n => (sh (BitVec.ofNat w n)).toNat) (by rw [show sh (BitVec.ofNat w 0) = 0#w from h.zero]; simp)
    (fun a b => by rw [ofNat_xor, h, BitVec.toNat_xor]) w 0 x.toNat x.isLt
  simpa [matrix, List.range_eq_range'] using e

theorem iter_matrix {w : Nat} {sh : BitVec w → BitVec w} (h : Linear sh) : ∀ n (x : BitVec w), Prandom.iter (ap (matrix sh)) n x.toNat = (iter sh n x).toNat
  | 0, _ => rfl
  | n + 1, x => by rw [Prandom.iter, ap_matrix h, iter_matrix h n, iter]

/-- What the kernel checks about a period: the power given by the bits leads from the polynomial back to it, and for no prime of the list does
the power that is left without the prime. -/
def periodCheck {w : Nat} (sh : BitVec w → BitVec w) (poly : BitVec w) (N : List Bool) (wit : List (Nat × List Bool)) : Bool :=
  ap (powBits (2 ^ 32 - 1) (matrix sh) N) poly.toNat == poly.toNat && decide (val N = prod (wit.map (·.1))) &&
  wit.all fun t => decide (val t.2 * t.1 = val N) && ap (powBits (2 ^ 32 - 1) (matrix sh) t.2) poly.toNat != poly.toNat

/-- The period of the polynomial. -/
theorem period {w : Nat} (hw : w ≤ 32) {sh : BitVec w → BitVec w} (h : Linear sh) (poly : BitVec w) (N : List Bool) (wit : List (Nat × List Bool))
    (hc : periodCheck sh poly N wit = true) (hps : ∀ t ∈ wit, IsPrime t.1) (hN : 0 < val N) (n : Nat) (hn : val N = n) (k : Nat) : iter sh k poly = poly ↔ n ∣ k := by
  subst hn
  have hlt : ∀ x : BitVec w, x.toNat < 2 ^ 32 := fun x => Nat.lt_of_lt_of_le x.isLt (Nat.pow_le_pow_right (by decide) hw)
  have hpow : ∀ bs, ap (powBits (2 ^ 32 - 1) (matrix sh) bs) poly.toNat = (iter sh (val bs) poly).toNat := by
    intro bs
    rw [Prandom.ap_powBits (2 ^ 32 - 1) bs (matrix sh) (fun x _ => Prandom.ap_lt _ x (by
      intro a ha
      obtain ⟨i, -, rfl⟩ := List.mem_map.1 ha
      exact hlt _)) poly.toNat (hlt poly), Nat.and_two_pow_sub_one_eq_mod, Nat.mod_eq_of_lt (hlt poly), iter_matrix h]
  have hfix : ∀ n, iter sh n poly = poly ↔ Prandom.iter sh n poly = poly := fun n => by rw [iter_eq]
  unfold periodCheck at hc
  rw [Bool.and_eq_true, Bool.and_eq_true, List.all_eq_true] at hc
  obtain ⟨⟨h1, h2⟩, h3⟩ := hc
  rw [beq_iff_eq, hpow] at h1
  have h1 := BitVec.eq_of_toNat_eq h1
  have h2 := of_decide_eq_true h2
  have h3' : ∀ t ∈ wit, val t.2 * t.1 = val N ∧ iter sh (val t.2) poly ≠ poly := by
    intro t ht
    have := h3 t ht
    rw [Bool.and_eq_true, bne_iff_ne, hpow] at this
    exact ⟨of_decide_eq_true this.1, fun e => this.2 (congrArg BitVec.toNat e)⟩
  have hmul : ∀ d m, iter sh d poly = poly → iter sh (d * m) poly = poly := by
    intro d m hd
    induction m with
    | zero => rfl
    | succ m ih =>
      rw [Nat.mul_succ, iter_eq, Prandom.iter_add, ← iter_eq sh _ poly, ih, ← iter_eq, hd]
  constructor
  · intro hk
    have hg := Prandom.fix_gcd sh poly k (val N) ((hfix k).1 hk) ((hfix _).1 h1)
    refine Classical.byContradiction fun hnd => ?_
    have hne : Nat.gcd k (val N) ≠ val N := fun e => hnd (e ▸ Nat.gcd_dvd_left k (val N))
    obtain ⟨p, hp, hpN, m, hm⟩ := Prandom.proper_divisor (wit.map (·.1)) (val N) (Nat.gcd k (val N)) (by
      intro p hp
      obtain ⟨t, ht, rfl⟩ := List.mem_map.1 hp
      exact hps t ht) h2 hN (Nat.gcd_dvd_right _ _) hne
    obtain ⟨t, ht, rfl⟩ := List.mem_map.1 hp
    obtain ⟨h4, h5⟩ := h3' t ht
    have h6 : val N / t.1 = val t.2 := by
      rw [← h4, Nat.mul_div_cancel _ (by have := (hps t ht).1; omega)]
    apply h5
    rw [← h6, hm]
    exact hmul _ m ((hfix _).2 hg)
  · rintro ⟨m, rfl⟩
    exact hmul _ m h1

theorem prime_of (l : List (Nat × List Bool)) (h : l.all (fun t => decide (1 < t.1 ∧ t.1 < 300) && (List.range t.1).all (fun d => decide (¬t.1 % d = 0 ∨ d = 1))) = true) :
    ∀ t ∈ l, IsPrime t.1 := by
  intro t ht
  have := List.all_eq_true.1 h t ht
  rw [Bool.and_eq_true, List.all_eq_true] at this
  refine Prandom.isPrime_small (of_decide_eq_true this.1).1 fun d hd hdv => ?_
  rcases of_decide_eq_true (this.2 d (List.mem_range.2 hd)) with h1 | h1
  · exact absurd (Nat.mod_eq_zero_of_dvd hdv) h1
  · exact h1

theorem prime65537 : IsPrime 65537 := by
  have hdiv : ∀ i, i < 257 → i < 2 ∨ 65537 % i ≠ 0 := by decide +kernel
  refine ⟨by decide, fun d hd => ?_⟩
  obtain ⟨e, he⟩ := hd
  have hno : ∀ x y, 65537 = x * y → x < 257 → x = 1 := by
    intro x y hxy hx
    rcases hdiv x hx with h | h
    · rcases (by omega : x = 0 ∨ x = 1) with rfl | rfl
      · omega
      · rfl
    · exact absurd (Nat.mod_eq_zero_of_dvd ⟨y, hxy⟩) h
  by_cases h1 : d < 257
  · exact Or.inl (hno d e he h1)
  · by_cases h2 : e < 257
    · have := hno e d (by rw [he, Nat.mul_comm]) h2
      subst this
      omega
    · have := Nat.mul_le_mul (Nat.not_lt.1 h1) (Nat.not_lt.1 h2)
      omega

/-- The bits of a number below 2^32, lowest first. -/
def bitsOf (n : Nat) : List Bool := (List.range 32).map n.testBit

theorem period7 (k : Nat) : iter (shiftBe (0x09 : BitVec 7)) k 0x09 = 0x09 ↔ 127 ∣ k :=
  period (by decide) (linear_shiftBe _) _ (bitsOf 127) [(127, bitsOf 1)] (by decide +kernel) (prime_of _ (by decide +kernel)) (by decide +kernel) _ (by decide +kernel) k
theorem period8 (k : Nat) : iter (shiftBe (0x07 : BitVec 8)) k 0x07 = 0x07 ↔ 127 ∣ k :=
  period (by decide) (linear_shiftBe _) _ (bitsOf 127) [(127, bitsOf 1)] (by decide +kernel) (prime_of _ (by decide +kernel)) (by decide +kernel) _ (by decide +kernel) k
def wit16 : List (Nat × List Bool) := [(7, bitsOf 4681), (31, bitsOf 1057), (151, bitsOf 217)]
theorem period16 (k : Nat) : iter (shiftLe (0xa001 : BitVec 16)) k 0xa001 = 0xa001 ↔ 32767 ∣ k :=
  period (by decide) (linear_shiftLe _) _ (bitsOf 32767) wit16 (by decide +kernel) (prime_of _ (by decide +kernel)) (by decide +kernel) _ (by decide +kernel) k
theorem periodCcitt (k : Nat) : iter (shiftLe (0x8408 : BitVec 16)) k 0x8408 = 0x8408 ↔ 32767 ∣ k :=
  period (by decide) (linear_shiftLe _) _ (bitsOf 32767) wit16 (by decide +kernel) (prime_of _ (by decide +kernel)) (by decide +kernel) _ (by decide +kernel) k
theorem periodItut (k : Nat) : iter (shiftBe (0x1021 : BitVec 16)) k 0x1021 = 0x1021 ↔ 32767 ∣ k :=
  period (by decide) (linear_shiftBe _) _ (bitsOf 32767) wit16 (by decide +kernel) (prime_of _ (by decide +kernel)) (by decide +kernel) _ (by decide +kernel) k
def witT10 : List (Nat × List Bool) := [(3, bitsOf 21845), (5, bitsOf 13107), (17, bitsOf 3855), (257, bitsOf 255)]
theorem periodT10 (k : Nat) : iter (shiftBe (0x8bb7 : BitVec 16)) k 0x8bb7 = 0x8bb7 ↔ 65535 ∣ k :=
  period (by decide) (linear_shiftBe _) _ (bitsOf 65535) witT10 (by decide +kernel) (prime_of _ (by decide +kernel)) (by decide +kernel) _ (by decide +kernel) k
def wit32 : List (Nat × List Bool) := [(3, bitsOf 1431655765), (5, bitsOf 858993459), (17, bitsOf 252645135), (257, bitsOf 16711935), (65537, bitsOf 65535)]
theorem period32 (k : Nat) : iter (shiftLe (0xedb88320 : BitVec 32)) k 0xedb88320 = 0xedb88320 ↔ 4294967295 ∣ k :=
  period (by decide) (linear_shiftLe _) _ (bitsOf 4294967295) wit32 (by decide +kernel) (by
    intro t ht
    simp only [wit32, List.mem_cons, List.not_mem_nil, or_false] at ht
    rcases ht with rfl | rfl | rfl | rfl | rfl
    · exact prime_of [(3, [])] (by decide +kernel) (3, []) (by simp)
    · exact prime_of [(5, [])] (by decide +kernel) (5, []) (by simp)
    · exact prime_of [(17, [])] (by decide +kernel) (17, []) (by simp)
    · exact prime_of [(257, [])] (by decide +kernel) (257, []) (by simp)
    · exact prime65537) (by decide +kernel) _ (by decide +kernel) k

/-! ### C130 -/

theorem twoBit_le {w : Nat} {f : Fn w} {poly : BitVec w} (hf : IsLe f poly) (hp : poly.msb = true) {N : Nat} (hN : ∀ k, iter (shiftLe poly) k poly = poly ↔ N ∣ k) :
    TwoBitDistance f N bitsLe := by
  intro m1 m2 r1 r2 a1 a2 c i j hij ht
  obtain ⟨hl, r, hr⟩ := two_diff bitsLe_length hij ht
  rw [hf, hf, Option.some.injEq, specLe, specLe, run_eq_iff (reg_le poly) _ _ c hl, hr, run_two (reg_le poly) (fun _ _ => shiftLe_inj poly hp),
    hN, show j - i - 1 + 1 = j - i by omega]

theorem twoBit_be {w : Nat} {f : Fn w} {poly : BitVec w} (hf : IsBe f poly) (hp : poly.getLsbD 0 = true) {N : Nat} (hN : ∀ k, iter (shiftBe poly) k poly = poly ↔ N ∣ k) :
    TwoBitDistance f N bitsBe := by
  intro m1 m2 r1 r2 a1 a2 c i j hij ht
  obtain ⟨hl, r, hr⟩ := two_diff bitsBe_length hij ht
  rw [hf, hf, Option.some.injEq, specBe, specBe, run_eq_iff (reg_be poly) _ _ c hl, hr, run_two (reg_be poly) (fun _ _ => shiftBe_inj poly hp),
    hN, show j - i - 1 + 1 = j - i by omega]

theorem run7 (l : List Bool) : l.foldl (serialBe (0x12 : BitVec 8)) 0#8 = 0#8 ↔ l.foldl (serialBe (0x09 : BitVec 7)) 0#7 = 0#7 := by
  have h : ∀ (l : List Bool) (c : BitVec 7), l.foldl (serialBe (0x12 : BitVec 8)) (up7 c) = up7 (l.foldl (serialBe 0x09) c) := by
    intro l
    induction l with
    | nil => intro c; rfl
    | cons b l ih => intro c; rw [List.foldl_cons, List.foldl_cons, serial_up7, ih]
  have e := h l 0#7
  rw [show up7 0#7 = 0#8 by decide] at e
  rw [e]
  constructor
  · intro e; exact up7_inj _ _ (e.trans (by decide))
  · intro e; rw [e]; decide

theorem twoBit_7 : TwoBitDistance crc7 127 bitsBe := by
  intro m1 m2 r1 r2 a1 a2 c i j hij ht
  obtain ⟨hl, r, hr⟩ := two_diff bitsBe_length hij ht
  rw [crc_partial.1, crc_partial.1, Option.some.injEq, specBe, specBe, run_eq_iff (reg_be 0x12) _ _ c hl, hr, run7,
    run_two (reg_be 0x09) (fun _ _ => shiftBe_inj 0x09 (by decide)), period7, show j - i - 1 + 1 = j - i by omega]

/-- **C130**, for the checksums of 7, 8, 16 and 32 bits. What is missing: the 64-bit ones, whose shipped loop does not compute a checksum
(`crc64_violated`). -/
theorem two_bits_partial : TwoBitDistance crc7 127 bitsBe ∧ TwoBitDistance crc8 127 bitsBe ∧ TwoBitDistance crc16 32767 bitsLe ∧
    TwoBitDistance crcCcitt 32767 bitsLe ∧ TwoBitDistance crcItut 32767 bitsBe ∧ TwoBitDistance crcT10dif 65535 bitsBe ∧
    TwoBitDistance crc32 4294967295 bitsLe := by
  obtain ⟨-, h8, h16, hc, hi, ht, h32⟩ := crc_partial
  exact ⟨twoBit_7, twoBit_be h8 (by decide) period8, twoBit_le h16 (by decide) period16, twoBit_le hc (by decide) periodCcitt,
    twoBit_be hi (by decide) periodItut, twoBit_be ht (by decide) periodT10, twoBit_le h32 (by decide) period32⟩

/-! ### C131 -/

/-- The parity of a register. -/
def par {w : Nat} (x : BitVec w) : Nat := ap (List.replicate 32 1) x.toNat

theorem par_xor {w : Nat} (x y : BitVec w) : par (x ^^^ y) = par x ^^^ par y := by
  unfold par; rw [BitVec.toNat_xor, Prandom.ap_xor]

theorem par_shift {w : Nat} (hw : w ≤ 32) {sh : BitVec w → BitVec w} (h : Linear sh)
    (hb : ∀ i, i < 32 → par (sh (BitVec.ofNat w (2 ^ i))) = par (BitVec.ofNat w (2 ^ i))) (x : BitVec w) : par (sh x) = par x := by
  have h0 : par 0#w = 0 := by unfold par; rw [BitVec.toNat_ofNat, Nat.zero_mod, Prandom.ap_zero]
  have := Prandom.linear_ext (fun n => par (sh (BitVec.ofNat w n))) (fun n => par (BitVec.ofNat w n))
    (by rw [show sh (BitVec.ofNat w 0) = 0#w from h.zero, h0]) h0 (fun a b => by rw [ofNat_xor, h, par_xor]) (fun a b => by rw [ofNat_xor, par_xor]) hb
    x.toNat (Nat.lt_of_lt_of_le x.isLt (Nat.pow_le_pow_right (by decide) hw))
  simpa using this

theorem run_par {w : Nat} {ser : BitVec w → Bool → BitVec w} {sh : BitVec w → BitVec w} {poly : BitVec w} (h : Reg ser sh poly)
    (hs : ∀ x, par (sh x) = par x) (hp : par poly = 1) : ∀ (l : List Bool) (c : BitVec w), par (l.foldl ser c) = par c ^^^ (l.countP id % 2)
  | [], c => by simp
  | b :: l, c => by
    rw [List.foldl_cons, run_par h hs hp l, h.bit, par_xor, hs, List.countP_cons, Nat.xor_assoc]
    congr 1
    have h2 := Nat.mod_two_eq_zero_or_one (l.countP id)
    cases b
    · rw [if_neg (by simp), if_neg (by simp)]
      have h0 : par (0 : BitVec w) = 0 := by unfold par; rw [show (0 : BitVec w) = 0#w from rfl, BitVec.toNat_ofNat, Nat.zero_mod, Prandom.ap_zero]
      rw [h0, Nat.zero_xor]; rfl
    · rw [if_pos rfl, hp]
      show 1 ^^^ l.countP id % 2 = (l.countP id + 1) % 2
      rcases h2 with h2 | h2
      · rw [h2, show (l.countP id + 1) % 2 = 1 by omega]; rfl
      · rw [h2, show (l.countP id + 1) % 2 = 0 by omega]; rfl

theorem count_diff : ∀ (l1 l2 : List Bool), (List.zipWith (fun a b => a != b) l1 l2).countP id = (l1.zip l2).countP fun p => p.1 != p.2
  | [], _ => by simp
  | _ :: _, [] => by simp
  | a :: l1, b :: l2 => by
    rw [List.zipWith_cons_cons, List.zip_cons_cons, List.countP_cons, List.countP_cons, count_diff l1 l2]; rfl

theorem odd_run {w : Nat} {ser : BitVec w → Bool → BitVec w} {sh : BitVec w → BitVec w} {poly : BitVec w} (h : Reg ser sh poly)
    (hs : ∀ x, par (sh x) = par x) (hp : par poly = 1) {bits : Byte → List Bool} (hb : ∀ d, (bits d).length = 8) {m1 m2 : List Byte} (hl : m1.length = m2.length)
    (ho : wrong bits m1 m2 % 2 = 1) (c : BitVec w) : (m1.flatMap bits).foldl ser c ≠ (m2.flatMap bits).foldl ser c := by
  intro e
  rw [run_eq_iff h _ _ c (by rw [flat_length bits hb, flat_length bits hb, hl])] at e
  have := run_par h hs hp (List.zipWith (fun a b => a != b) (m1.flatMap bits) (m2.flatMap bits)) 0#w
  have h0 : par 0#w = 0 := by unfold par; rw [BitVec.toNat_ofNat, Nat.zero_mod, Prandom.ap_zero]
  rw [e, h0, count_diff, Nat.zero_xor] at this
  unfold wrong at ho
  omega

theorem odd_le {w : Nat} {f : Fn w} {poly : BitVec w} (hw : w ≤ 32) (hf : IsLe f poly) (hp : par poly = 1)
    (hb : ∀ i, i < 32 → par (shiftLe poly (BitVec.ofNat w (2 ^ i))) = par (BitVec.ofNat w (2 ^ i))) : DetectsOdd f bitsLe := by
  intro m1 m2 r1 r2 a1 a2 c hl ho
  rw [hf, hf, ne_eq, Option.some.injEq]
  exact odd_run (reg_le poly) (par_shift hw (linear_shiftLe poly) hb) hp bitsLe_length hl ho c

theorem odd_be {w : Nat} {f : Fn w} {poly : BitVec w} (hw : w ≤ 32) (hf : IsBe f poly) (hp : par poly = 1)
    (hb : ∀ i, i < 32 → par (shiftBe poly (BitVec.ofNat w (2 ^ i))) = par (BitVec.ofNat w (2 ^ i))) : DetectsOdd f bitsBe := by
  intro m1 m2 r1 r2 a1 a2 c hl ho
  rw [hf, hf, ne_eq, Option.some.injEq]
  exact odd_run (reg_be poly) (par_shift hw (linear_shiftBe poly) hb) hp bitsBe_length hl ho c

/-- **C131**, for CRC-8, CRC-16, CRC-CCITT and CRC-ITU-T. What is missing: the other ones, see `odd_bits_violated`. -/
theorem odd_bits_partial : DetectsOdd crc8 bitsBe ∧ DetectsOdd crc16 bitsLe ∧ DetectsOdd crcCcitt bitsLe ∧ DetectsOdd crcItut bitsBe := by
  obtain ⟨-, h8, h16, hc, hi, -, -⟩ := crc_partial
  exact ⟨odd_be (by decide) h8 (by decide) (by decide +kernel), odd_le (by decide) h16 (by decide) (by decide +kernel),
    odd_le (by decide) hc (by decide) (by decide +kernel), odd_be (by decide) hi (by decide) (by decide +kernel)⟩

theorem same_be {w : Nat} {f : Fn w} {poly : BitVec w} (hf : IsBe f poly) {m1 m2 : List Byte} (hl : m1.length = m2.length)
    (h : (List.zipWith (fun a b => a != b) (m1.flatMap bitsBe) (m2.flatMap bitsBe)).foldl (serialBe poly) 0#w = 0#w) (a1 a2 : Nat) (r1 r2 : List Byte) (c : BitVec w) :
    f a1 (m1 ++ r1) m1.length c = f a2 (m2 ++ r2) m2.length c := by
  rw [hf, hf, Option.some.injEq, specBe, specBe, run_eq_iff (reg_be poly) _ _ c (by rw [flat_length _ bitsBe_length, flat_length _ bitsBe_length, hl])]
  exact h

theorem same_le {w : Nat} {f : Fn w} {poly : BitVec w} (hf : IsLe f poly) {m1 m2 : List Byte} (hl : m1.length = m2.length)
    (h : (List.zipWith (fun a b => a != b) (m1.flatMap bitsLe) (m2.flatMap bitsLe)).foldl (serialLe poly) 0#w = 0#w) (a1 a2 : Nat) (r1 r2 : List Byte) (c : BitVec w) :
    f a1 (m1 ++ r1) m1.length c = f a2 (m2 ++ r2) m2.length c := by
  rw [hf, hf, Option.some.injEq, specLe, specLe, run_eq_iff (reg_le poly) _ _ c (by rw [flat_length _ bitsLe_length, flat_length _ bitsLe_length, hl])]
  exact h

/-- **C131 fails** for CRC-7, CRC-T10-DIF and CRC-32: some errors of three, eleven and fifteen bits in a short message go unnoticed, whatever
the initial value. -/
theorem odd_bits_violated : ¬DetectsOdd crc7 bitsBe ∧ ¬DetectsOdd crcT10dif bitsBe ∧ ¬DetectsOdd crc32 bitsLe ∧
    (∀ c, crc7 0 [0x00] 1 c = crc7 0 [0x89] 1 c) ∧ wrong bitsBe [0x00] [0x89] = 3 ∧
    (∀ c, crcT10dif 0 [0x00, 0x00, 0x00] 3 c = crcT10dif 0 [0xc5, 0xdb, 0x80] 3 c) ∧ wrong bitsBe [0x00, 0x00, 0x00] [0xc5, 0xdb, 0x80] = 11 ∧
    (∀ c, crc32 0 [0, 0, 0, 0, 0] 5 c = crc32 0 [0x41, 0x06, 0x71, 0xdb, 0x01] 5 c) ∧ wrong bitsLe [0, 0, 0, 0, 0] [0x41, 0x06, 0x71, 0xdb, 0x01] = 15 := by
  obtain ⟨h7, -, -, -, -, ht, h32⟩ := crc_partial
  have e7 := same_be h7 (m1 := [0x00]) (m2 := [0x89]) rfl (by decide +kernel) 0 0 [] []
  have et := same_be ht (m1 := [0x00, 0x00, 0x00]) (m2 := [0xc5, 0xdb, 0x80]) rfl (by decide +kernel) 0 0 [] []
  have e32 := same_le h32 (m1 := [0, 0, 0, 0, 0]) (m2 := [0x41, 0x06, 0x71, 0xdb, 0x01]) rfl (by decide +kernel) 0 0 [] []
  refine ⟨fun h => h [0x00] [0x89] [] [] 0 0 0 rfl (by decide +kernel) (e7 0), fun h => h [0x00, 0x00, 0x00] [0xc5, 0xdb, 0x80] [] [] 0 0 0 rfl (by decide +kernel) (et 0),
    fun h => h [0, 0, 0, 0, 0] [0x41, 0x06, 0x71, 0xdb, 0x01] [] [] 0 0 0 rfl (by decide +kernel) (e32 0), e7, by decide +kernel, et, by decide +kernel, e32, by decide +kernel⟩

/-- Messages that differ in two bits at a given distance. -/
theorem twoBits_of (m1 m2 : List Byte) (i j : Nat) (hl : m1.length = m2.length) (hi : i < 8 * m1.length) (hj : j < 8 * m1.length)
    (h : ∀ k, k < 8 * m1.length → ((m1.flatMap bitsBe)[k]? ≠ (m2.flatMap bitsBe)[k]? ↔ k = i ∨ k = j)) : TwoBits bitsBe m1 m2 i j := by
  refine ⟨hl, fun k => ?_⟩
  by_cases hk : k < 8 * m1.length
  · exact h k hk
  · rw [List.getElem?_eq_none (by rw [flat_length _ bitsBe_length]; omega), List.getElem?_eq_none (by rw [flat_length _ bitsBe_length]; omega)]
    constructor
    · intro h; exact absurd rfl h
    · rintro (rfl | rfl) <;> omega

/-- Not vacuous: the first and the eighth bit of two bytes. -/
example : TwoBits bitsBe [0x81, 0x00] [0x00, 0x00] 0 7 := twoBits_of _ _ 0 7 rfl (by decide) (by decide) (by decide +kernel)

/-- Both answers occur: CRC-8 notices bits 0 and 126 together, and does not notice bits 0 and 127. -/
example (c : BitVec 8) :
    crc8 0 ((0x80 :: List.replicate 14 0x00 ++ [0x02]) ++ []) (0x80 :: List.replicate 14 0x00 ++ [0x02] : List Byte).length c ≠
      crc8 0 (List.replicate 16 0x00 ++ []) (List.replicate 16 0x00 : List Byte).length c ∧
    crc8 0 ((0x80 :: List.replicate 14 0x00 ++ [0x01]) ++ []) (0x80 :: List.replicate 14 0x00 ++ [0x01] : List Byte).length c =
      crc8 0 (List.replicate 16 0x00 ++ []) (List.replicate 16 0x00 : List Byte).length c :=
  ⟨fun h => absurd ((two_bits_partial.2.1 _ _ [] [] 0 0 c 0 126 (by decide)
      (twoBits_of _ _ 0 126 (by decide) (by decide) (by decide) (by decide +kernel))).1 h) (by decide),
    (two_bits_partial.2.1 _ _ [] [] 0 0 c 0 127 (by decide)
      (twoBits_of _ _ 0 127 (by decide) (by decide) (by decide) (by decide +kernel))).2 (by decide)⟩

/-- An odd number of wrong bits. -/
example : wrong bitsBe [0x81, 0x01] [0x00, 0x00] % 2 = 1 := by decide +kernel

end Bfdev.Crc

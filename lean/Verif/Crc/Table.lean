import Verif.Crc.Linear
import Verif.Swab.Props
set_option linter.unusedSimpArgs false
/-!
The generated tables, and the loops that use them.
-/
namespace Bfdev.Crc
open Swab (swab16 swab64 getLe32 getType ofLe)

/-- One byte step of the register, from the table `T` of the effect of its low byte. -/
def stepT {w : Nat} (T : Byte → BitVec w) (c : BitVec w) : BitVec w := T (c.setWidth 8) ^^^ (c >>> 8)

/-- The list is the table for `T`: row `r` is the effect of a byte followed by `r` zero bytes. -/
def TableOk {w : Nat} (T : Byte → BitVec w) (rows : Nat) (t : List (BitVec w)) : Prop :=
  ∀ r, r < rows → ∀ i : Nat, i < 256 → t[r * 256 + i]? = some (iter (stepT T) r (T (BitVec.ofNat 8 i)))

theorem linear_stepT {w : Nat} {T : Byte → BitVec w} (h : Linear T) : Linear (stepT T) := by
  intro x y
  unfold stepT
  rw [BitVec.setWidth_xor, h, BitVec.ushiftRight_xor_distrib]
  simp only [BitVec.xor_assoc, xor_lc]

/-- A byte added to the register. -/
theorem stepT_byte {w : Nat} {T : Byte → BitVec w} (hw : 8 ≤ w) (e : BitVec w) (d : Byte) :
    stepT T (e ^^^ d.setWidth w) = T (e.setWidth 8 ^^^ d) ^^^ (e >>> 8) := by
  unfold stepT
  rw [BitVec.setWidth_xor, BitVec.ushiftRight_xor_distrib]
  have h1 : (d.setWidth w).setWidth 8 = d := by
    apply BitVec.eq_of_toNat_eq
    have := d.isLt
    have h2 : (2 : Nat) ^ 8 ≤ 2 ^ w := Nat.pow_le_pow_right (by omega) hw
    simp only [BitVec.toNat_setWidth]
    rw [Nat.mod_eq_of_lt (a := d.toNat) (by omega), Nat.mod_eq_of_lt (by omega)]
  have h2 : (d.setWidth w) >>> 8 = 0#w := by
    apply BitVec.eq_of_toNat_eq
    have h3 := d.isLt
    simp only [BitVec.toNat_ushiftRight, BitVec.toNat_setWidth, Nat.shiftRight_eq_div_pow, BitVec.toNat_ofNat, Nat.zero_mod]
    have := Nat.mod_le d.toNat (2 ^ w)
    omega
  rw [h1, h2, BitVec.xor_zero]

theorem low_byte {w : Nat} (hw : 8 ≤ w) (c : BitVec w) : (c &&& 0xff).toNat = (c.setWidth 8).toNat := by
  have h2 : (2 : Nat) ^ 8 ≤ 2 ^ w := Nat.pow_le_pow_right (by omega) hw
  rw [BitVec.toNat_and, BitVec.toNat_setWidth, show ((0xff : BitVec w)).toNat = 2 ^ 8 - 1 by
    show 255 % 2 ^ w = 255
    exact Nat.mod_eq_of_lt (by omega), Nat.and_two_pow_sub_one_eq_mod]

theorem crcByte_some {w : Nat} {T : Byte → BitVec w} {t : List (BitVec w)} {rows : Nat} (hw : 8 ≤ w) (hr : 0 < rows) (h : TableOk T rows t)
    (c : BitVec w) (d : Byte) : crcByte t c d = some (stepT T (c ^^^ d.setWidth w)) := by
  have h1 := h 0 hr ((c ^^^ d.setWidth w).setWidth 8).toNat (BitVec.isLt _)
  rw [Nat.zero_mul, Nat.zero_add] at h1
  unfold crcByte
  rw [low_byte hw, h1, Option.map_some, iter, BitVec.ofNat_toNat, BitVec.setWidth_eq]
  congr 1
  unfold stepT
  congr 1
  rw [BitVec.ushiftRight_xor_distrib]
  have h2 : (d.setWidth w) >>> 8 = 0#w := by
    apply BitVec.eq_of_toNat_eq
    have h3 := d.isLt
    simp only [BitVec.toNat_ushiftRight, BitVec.toNat_setWidth, Nat.shiftRight_eq_div_pow, BitVec.toNat_ofNat, Nat.zero_mod]
    have := Nat.mod_le d.toNat (2 ^ w)
    omega
  rw [h2, BitVec.xor_zero]

/-- A whole message, byte by byte. -/
def run {w : Nat} (T : Byte → BitVec w) (c : BitVec w) (msg : List Byte) : BitVec w := msg.foldl (fun c d => stepT T (c ^^^ d.setWidth w)) c

theorem bytes_some {w : Nat} {T : Byte → BitVec w} {t : List (BitVec w)} {rows : Nat} (hw : 8 ≤ w) (hr : 0 < rows) (h : TableOk T rows t) :
    ∀ (len : Nat) (src : List Byte) (c : BitVec w), len ≤ src.length → bytes t len src c = some (run T c (src.take len)) := by
  intro len
  induction len with
  | zero => intro src c _; cases src <;> rfl
  | succ len ih =>
    intro src c hl
    cases src with
    | nil => exact absurd hl (by simp)
    | cons d src =>
      rw [bytes, crcByte_some hw hr h, Option.bind_some, ih _ _ (by simpa using hl)]
      rfl

theorem head_some {w : Nat} {T : Byte → BitVec w} {t : List (BitVec w)} (hw : 8 ≤ w) (h : TableOk T 8 t) :
    ∀ (len addr : Nat) (src : List Byte) (c : BitVec w), len ≤ src.length →
      head t len addr src c = some (len - min len ((4 - addr % 4) % 4), src.drop (min len ((4 - addr % 4) % 4)),
        run T c (src.take (min len ((4 - addr % 4) % 4)))) := by
  intro len
  induction len with
  | zero => intro addr src c _; cases src <;> simp [head, run]
  | succ len ih =>
    intro addr src c hl
    rw [head.eq_def]
    dsimp only
    by_cases ha : addr % 4 = 0
    · rw [if_pos ha, ha]; simp [run]
    · rw [if_neg ha]
      cases src with
      | nil => exact absurd hl (by simp)
      | cons d src =>
        dsimp only
        rw [crcByte_some hw (by omega) h, Option.bind_some, ih _ _ _ (by simpa using hl)]
        have e : min (len + 1) ((4 - addr % 4) % 4) = min len ((4 - (addr + 1) % 4) % 4) + 1 := by omega
        rw [e, List.take_succ_cons, List.drop_succ_cons]
        congr 2
        omega

/-- The bytes of a 32-bit load. -/
theorem load_byte (a b c d : Byte) (k : Nat) (hk : k < 4) (v : BitVec 32) :
    ((BitVec.ofNat (8 * 4) (ofLe [a, b, c, d]) ^^^ v) >>> (8 * k)).setWidth 8 = ([a, b, c, d].getD k 0) ^^^ (v >>> (8 * k)).setWidth 8 := by
  rw [BitVec.ushiftRight_xor_distrib, BitVec.setWidth_xor]
  congr 1
  apply BitVec.eq_of_toNat_eq
  simp only [BitVec.toNat_setWidth, BitVec.toNat_ushiftRight, BitVec.toNat_ofNat, ofLe, Nat.shiftRight_eq_div_pow]
  have ha := a.isLt
  have hb := b.isLt
  have hc := c.isLt
  have hd := d.isLt
  have hk : k = 0 ∨ k = 1 ∨ k = 2 ∨ k = 3 := by omega
  rcases hk with rfl | rfl | rfl | rfl <;> simp only [List.getD_cons_zero, List.getD_cons_succ] <;> omega

theorem look_some {w : Nat} {T : Byte → BitVec w} {t : List (BitVec w)} (h : TableOk T 8 t) (r : Nat) (hr : r < 8) (v : BitVec 32) (sh : Nat) :
    look t r v sh = some (iter (stepT T) r (T ((v >>> sh).setWidth 8))) := by
  unfold look
  rw [low_byte (by omega), h r hr _ (BitVec.isLt _), BitVec.ofNat_toNat, BitVec.setWidth_eq]

theorem low_trunc {w : Nat} (hw : 8 ≤ w) (c : BitVec w) (k : Nat) (hk : k < 4) :
    ((((c.setWidth 32).setWidth w) >>> (8 * k)).setWidth 8) = ((c.setWidth 32) >>> (8 * k)).setWidth 8 := by
  apply BitVec.eq_of_getLsbD_eq
  intro i hi
  simp only [BitVec.getLsbD_setWidth, BitVec.getLsbD_ushiftRight]
  by_cases h : 8 * k + i < w
  · simp [h]
  · have : c.getLsbD (8 * k + i) = false := BitVec.getLsbD_of_ge _ _ (by omega)
    simp [h, this]

theorem trunc_gone {w : Nat} (c : BitVec w) : ((c.setWidth 32).setWidth w) >>> 32 = 0#w := by
  apply BitVec.eq_of_getLsbD_eq
  intro i hi
  simp only [BitVec.getLsbD_setWidth, BitVec.getLsbD_ushiftRight, BitVec.getLsbD_zero]
  simp
  omega

/-- The combined step for eight bytes is eight byte steps from the register cut to 32 bits. -/
theorem slice_some {w : Nat} {T : Byte → BitVec w} {t : List (BitVec w)} (hw : 8 ≤ w) (hT : Linear T) (h : TableOk T 8 t) (c : BitVec w)
    (d0 d1 d2 d3 d4 d5 d6 d7 : Byte) (rest : List Byte) :
    slice t (d0 :: d1 :: d2 :: d3 :: d4 :: d5 :: d6 :: d7 :: rest) c =
      some (run T ((c.setWidth 32).setWidth w) [d0, d1, d2, d3, d4, d5, d6, d7]) := by
  have g0 : getLe32 (d0 :: d1 :: d2 :: d3 :: d4 :: d5 :: d6 :: d7 :: rest) 0 = some (BitVec.ofNat (8 * 4) (ofLe [d0, d1, d2, d3])) := by
    simp [getLe32, getType, rd]
  have g1 : getLe32 (d0 :: d1 :: d2 :: d3 :: d4 :: d5 :: d6 :: d7 :: rest) 4 = some (BitVec.ofNat (8 * 4) (ofLe [d4, d5, d6, d7])) := by
    simp [getLe32, getType, rd]
  unfold slice
  rw [g0, Option.bind_some, g1, Option.bind_some]
  dsimp only
  have z : ∀ v : BitVec 32, v = v ^^^ 0#32 := fun v => by rw [BitVec.xor_zero]
  have hl : ∀ k, k < 4 → ((BitVec.ofNat (8 * 4) (ofLe [d4, d5, d6, d7])) >>> (8 * k)).setWidth 8 = [d4, d5, d6, d7].getD k 0 := by
    intro k hk
    have h1 := load_byte d4 d5 d6 d7 k hk 0#32
    rw [BitVec.xor_zero] at h1
    rw [h1]
    simp
  have e0 := load_byte d0 d1 d2 d3 0 (by omega) (c.setWidth 32)
  have e1 := load_byte d0 d1 d2 d3 1 (by omega) (c.setWidth 32)
  have e2 := load_byte d0 d1 d2 d3 2 (by omega) (c.setWidth 32)
  have e3 := load_byte d0 d1 d2 d3 3 (by omega) (c.setWidth 32)
  have f0 := hl 0 (by omega)
  have f1 := hl 1 (by omega)
  have f2 := hl 2 (by omega)
  have f3 := hl 3 (by omega)
  rw [← low_trunc hw c _ (by omega)] at e0 e1 e2 e3
  simp only [Nat.mul_zero, Nat.mul_one, Nat.reduceMul, List.getD_cons_zero, List.getD_cons_succ] at e0 e1 e2 e3 f0 f1 f2 f3
  simp only [look_some h _ (by omega : 7 < 8), look_some h _ (by omega : 6 < 8), look_some h _ (by omega : 5 < 8), look_some h _ (by omega : 4 < 8),
    look_some h _ (by omega : 3 < 8), look_some h _ (by omega : 2 < 8), look_some h _ (by omega : 1 < 8), look_some h _ (by omega : 0 < 8),
    Option.bind_some, Option.map_some]
  rw [e0, e1, e2, e3, f0, f1, f2, f3]
  have hg := trunc_gone c
  generalize (c.setWidth 32).setWidth w = e at *
  have hlin := linear_stepT hT
  congr 1
  unfold run
  simp only [List.foldl_cons, List.foldl_nil]
  -- unroll the byte steps, keeping the untouched part of the register apart
  have s0 : ∀ (x e : BitVec w) (d : Byte), stepT T ((x ^^^ e) ^^^ d.setWidth w) = stepT T x ^^^ T (e.setWidth 8 ^^^ d) ^^^ (e >>> 8) := by
    intro x e d
    rw [BitVec.xor_assoc, hlin, stepT_byte hw, BitVec.xor_assoc]
  have sz : ∀ (x : BitVec w) (d : Byte), stepT T (x ^^^ d.setWidth w) = stepT T x ^^^ T d := by
    intro x d
    have := s0 x 0#w d
    rw [BitVec.xor_zero] at this
    rw [this]
    simp
  rw [stepT_byte hw e d0, s0 _ (e >>> 8), s0 _ (e >>> 8 >>> 8), s0 _ (e >>> 8 >>> 8 >>> 8), ← BitVec.shiftRight_add, ← BitVec.shiftRight_add, ← BitVec.shiftRight_add]
  simp only [Nat.reduceAdd]
  rw [hg, BitVec.xor_zero, sz, sz, sz, sz]
  simp only [hlin _ _, iter, BitVec.ushiftRight_zero, BitVec.xor_comm d0, BitVec.xor_comm d1, BitVec.xor_comm d2, BitVec.xor_comm d3]

/-- The effect of the eight-byte loop on the register: cut to 32 bits before every group of eight bytes. -/
def runSlices {w : Nat} (T : Byte → BitVec w) : Nat → BitVec w → List Byte → BitVec w
  | 0, c, _ => c
  | n + 1, c, msg => runSlices T n (run T ((c.setWidth 32).setWidth w) (msg.take 8)) (msg.drop 8)

theorem slices_some {w : Nat} {T : Byte → BitVec w} {t : List (BitVec w)} (hw : 8 ≤ w) (hT : Linear T) (h : TableOk T 8 t) :
    ∀ (n r : Nat) (src : List Byte) (c : BitVec w), r < 8 → 8 * n + r ≤ src.length →
      slices t (8 * n + r) src c = some (r, src.drop (8 * n), runSlices T n c src) := by
  intro n
  induction n with
  | zero =>
    intro r src c hr hl
    rw [Nat.mul_zero, Nat.zero_add, List.drop_zero]
    unfold slices
    split
    · omega
    · rfl
  | succ n ih =>
    intro r src c hr hl
    rw [show 8 * (n + 1) + r = (8 * n + r) + 8 by omega, slices]
    obtain ⟨d0, d1, d2, d3, d4, d5, d6, d7, rest, rfl⟩ : ∃ d0 d1 d2 d3 d4 d5 d6 d7 rest, src = d0 :: d1 :: d2 :: d3 :: d4 :: d5 :: d6 :: d7 :: rest := by
      have hl : 8 ≤ src.length := by omega
      refine ⟨src[0], src[1], src[2], src[3], src[4], src[5], src[6], src[7], src.drop 8, ?_⟩
      rw [← List.drop_eq_getElem_cons, ← List.drop_eq_getElem_cons, ← List.drop_eq_getElem_cons, ← List.drop_eq_getElem_cons,
        ← List.drop_eq_getElem_cons, ← List.drop_eq_getElem_cons, ← List.drop_eq_getElem_cons, ← List.drop_eq_getElem_cons, List.drop_zero]
    rw [slice_some hw hT h, Option.bind_some, ih _ _ _ hr (by simp at hl ⊢; omega)]
    rfl

/-- For registers of up to 32 bits nothing is cut. -/
theorem runSlices_narrow {w : Nat} (T : Byte → BitVec w) (hw : w ≤ 32) : ∀ (n : Nat) (c : BitVec w) (msg : List Byte),
    runSlices T n c msg = run T c (msg.take (8 * n)) := by
  intro n
  induction n with
  | zero => intro c msg; simp [runSlices, run]
  | succ n ih =>
    intro c msg
    have : (c.setWidth 32).setWidth w = c := by
      apply BitVec.eq_of_getLsbD_eq
      intro i hi
      simp only [BitVec.getLsbD_setWidth, hi, decide_true, Bool.true_and]
      simp; omega
    rw [runSlices, ih, this, show 8 * (n + 1) = 8 + 8 * n by omega, List.take_add]
    simp [run, List.foldl_append]

/-- Number of bytes up to the first address divisible by four. -/
def lead (addr len : Nat) : Nat := min len ((4 - addr % 4) % 4)

/-- The register at the end of a call. -/
def runAll {w : Nat} (T : Byte → BitVec w) (addr : Nat) (c : BitVec w) (msg : List Byte) : BitVec w :=
  let k := lead addr msg.length
  let n := (msg.length - k) / 8
  run T (runSlices T n (run T c (msg.take k)) (msg.drop k)) (msg.drop (k + 8 * n))

theorem runSlices_take {w : Nat} (T : Byte → BitVec w) : ∀ (n : Nat) (c : BitVec w) (msg rest : List Byte), 8 * n ≤ msg.length →
    runSlices T n c (msg ++ rest) = runSlices T n c msg := by
  intro n
  induction n with
  | zero => intro _ _ _ _; rfl
  | succ n ih =>
    intro c msg rest h
    rw [runSlices, runSlices, List.take_append_of_le_length (by omega), List.drop_append_of_le_length (by omega), ih _ _ _ (by simp; omega)]

theorem inline_some {w : Nat} {T : Byte → BitVec w} {t : List (BitVec w)} (hw : 8 ≤ w) (hT : Linear T) (h : TableOk T 8 t) (sw : BitVec w → BitVec w)
    (addr : Nat) (msg rest : List Byte) (c : BitVec w) : inline sw t addr (msg ++ rest) msg.length c = some (sw (runAll T addr (sw c) msg)) := by
  unfold inline
  have hk : lead addr msg.length ≤ msg.length := Nat.min_le_left _ _
  rw [head_some hw h _ _ _ _ (by simp), Option.bind_some]
  dsimp only
  unfold runAll
  dsimp only
  change (slices t (msg.length - lead addr msg.length) ((msg ++ rest).drop (lead addr msg.length)) (run T (sw c) ((msg ++ rest).take (lead addr msg.length)))).bind _ = _
  generalize lead addr msg.length = k at *
  rw [List.take_append_of_le_length hk, List.drop_append_of_le_length hk]
  have hs := slices_some hw hT h ((msg.length - k) / 8) ((msg.length - k) % 8) (msg.drop k ++ rest) (run T (sw c) (msg.take k)) (by omega) (by simp; omega)
  rw [show 8 * ((msg.length - k) / 8) + (msg.length - k) % 8 = msg.length - k by omega] at hs
  rw [hs, Option.bind_some]
  dsimp only
  rw [bytes_some hw (by omega) h _ _ _ (by simp; omega), Option.map_some, runSlices_take _ _ _ _ _ (by simp; omega),
    List.drop_append_of_le_length (by simp; omega), List.take_append_of_le_length (by simp; omega), List.drop_drop]
  congr 3
  rw [List.take_of_length_le]
  simp; omega

theorem plain_some {w : Nat} {T : Byte → BitVec w} {t : List (BitVec w)} {rows : Nat} (hw : 8 ≤ w) (hr : 0 < rows) (h : TableOk T rows t)
    (sw : BitVec w → BitVec w) (msg rest : List Byte) (c : BitVec w) :
    inlinePlain sw t (msg ++ rest) msg.length c = some (sw (run T (sw c) msg)) := by
  unfold inlinePlain
  rw [bytes_some hw hr h _ _ _ (by simp), Option.map_some, List.take_append_of_le_length (Nat.le_refl _), List.take_length]

/-- On registers of up to 32 bits the fast path changes nothing. -/
theorem runAll_narrow {w : Nat} (T : Byte → BitVec w) (hw : w ≤ 32) (addr : Nat) (c : BitVec w) (msg : List Byte) : runAll T addr c msg = run T c msg := by
  unfold runAll
  dsimp only
  rw [runSlices_narrow T hw]
  generalize lead addr msg.length = k
  unfold run
  rw [← List.foldl_append, ← List.foldl_append]
  congr 1
  conv => rhs; rw [← List.take_append_drop (k + 8 * ((msg.length - k) / 8)) msg, List.take_add, List.append_assoc]

end Bfdev.Crc

import Verif.Crc.Gen
set_option linter.unusedSimpArgs false
/-!
C60: the checksums equal their bit-serial definition. C73: burst errors are detected.
-/
namespace Bfdev.Crc
open Swab (swab16 swab64 swapped IsSwap)

/-! ### Byte swaps of the register -/

/-- What is needed of the byte swap of a register. -/
structure SwapOk {w : Nat} (sw : BitVec w → BitVec w) : Prop where
  wide : 8 ≤ w
  linear : Linear sw
  twice : ∀ x, sw (sw x) = x
  shift : ∀ x : BitVec w, sw (x <<< 8) = sw x >>> 8
  low : ∀ x, (sw x).setWidth 8 = (x >>> (w - 8)).setWidth 8
  byte : ∀ d : Byte, sw (d.setWidth w <<< (w - 8)) = d.setWidth w

theorem swapOk_of {w : Nat} (sw : BitVec w → BitVec w) (hw : 8 ≤ w) (h : ∀ v, IsSwap 8 w v (sw v))
    (hf : ∀ i : Fin w, swapped 8 w i < w ∧ swapped 8 w (swapped 8 w i) = i ∧ (i.val < 8 → swapped 8 w i = w - 8 + i) ∧
      (i.val + 8 < w → 8 ≤ swapped 8 w i ∧ swapped 8 w (i + 8) = swapped 8 w i - 8) ∧ (w ≤ i.val + 8 → swapped 8 w i < 8) ∧
      (8 ≤ i.val → swapped 8 w i < w - 8)) : SwapOk sw where
  wide := hw
  linear := by
    intro x y
    apply BitVec.eq_of_getLsbD_eq
    intro i hi
    rw [BitVec.getLsbD_xor, h _ i hi, h _ i hi, h _ i hi, BitVec.getLsbD_xor]
  twice := by
    intro x
    apply BitVec.eq_of_getLsbD_eq
    intro i hi
    have := hf ⟨i, hi⟩
    rw [h _ i hi, h _ _ this.1, this.2.1]
  shift := by
    intro x
    apply BitVec.eq_of_getLsbD_eq
    intro i hi
    have hfi := hf ⟨i, hi⟩
    dsimp only at hfi
    rw [h _ i hi, BitVec.getLsbD_shiftLeft, BitVec.getLsbD_ushiftRight]
    by_cases c : i + 8 < w
    · obtain ⟨h1, h2⟩ := hfi.2.2.2.1 c
      rw [Nat.add_comm 8 i, h _ _ c, h2]
      have : ¬ swapped 8 w i < 8 := by omega
      simp [this, hfi.1]
    · have := hfi.2.2.2.2.1 (by omega)
      rw [BitVec.getLsbD_of_ge (sw x) _ (by omega)]
      simp [this]
  low := by
    intro x
    apply BitVec.eq_of_getLsbD_eq
    intro i hi
    have := (hf ⟨i, by omega⟩).2.2.1 hi
    rw [BitVec.getLsbD_setWidth, BitVec.getLsbD_setWidth, h _ i (by omega), BitVec.getLsbD_ushiftRight]
    dsimp only at this
    rw [this]
  byte := by
    intro d
    apply BitVec.eq_of_getLsbD_eq
    intro i hi
    have hfi := hf ⟨i, hi⟩
    dsimp only at hfi
    rw [h _ i hi, BitVec.getLsbD_shiftLeft, BitVec.getLsbD_setWidth, BitVec.getLsbD_setWidth]
    by_cases c : i < 8
    · have := hfi.2.2.1 c
      rw [this, show w - 8 + i - (w - 8) = i by omega]
      have h1 : w - 8 + i < w := by omega
      simp [h1, hi]
    · have := hfi.2.2.2.2.2 (by omega)
      rw [BitVec.getLsbD_of_ge d i (by omega)]
      simp [this]

theorem swap16 : SwapOk swab16 := swapOk_of swab16 (by decide) Swab.swaps_correct.1 (by decide +kernel)
theorem swap64 : SwapOk swab64 := swapOk_of swab64 (by decide) Swab.swaps_correct.2.2.1 (by decide +kernel)
theorem swap8 : SwapOk (w := 8) same where
  wide := by decide
  linear := fun _ _ => rfl
  twice := fun _ => rfl
  shift := fun x => by show x <<< 8 = x >>> 8; revert x; decide +kernel
  low := fun x => by simp [same]
  byte := fun x => by simp [same]

/-! ### From the tables to the definition -/

theorem run_le {w : Nat} (hw : 8 ≤ w) (poly : BitVec w) (msg : List Byte) : ∀ c, run (tLe poly) c msg = specLe poly c msg := by
  unfold run specLe
  induction msg with
  | nil => intro _; rfl
  | cons d msg ih =>
    intro c
    rw [List.foldl_cons, List.flatMap_cons, List.foldl_append, serialLe_byte hw, iter8_le hw]
    exact ih _

/-- The stored effect of a byte on a swapped register. -/
def tSw {w : Nat} (sw : BitVec w → BitVec w) (poly : BitVec w) (d : Byte) : BitVec w := sw (tBe poly d)

theorem step_sw {w : Nat} {sw : BitVec w → BitVec w} (h : SwapOk sw) (poly x : BitVec w) :
    stepT (tSw sw poly) (sw x) = sw (iter (shiftBe poly) 8 x) := by
  rw [iter8_be h.wide, h.linear, h.shift, stepT, tSw, h.low]

theorem run_be {w : Nat} {sw : BitVec w → BitVec w} (h : SwapOk sw) (poly : BitVec w) (msg : List Byte) :
    ∀ c, run (tSw sw poly) (sw c) msg = sw (specBe poly c msg) := by
  unfold run specBe
  induction msg with
  | nil => intro _; rfl
  | cons d msg ih =>
    intro c
    rw [List.foldl_cons, List.flatMap_cons, List.foldl_append, serialBe_byte h.wide, ← ih]
    congr 1
    rw [← step_sw h, h.linear, h.byte]

theorem linear_tSw {w : Nat} {sw : BitVec w → BitVec w} (h : SwapOk sw) (poly : BitVec w) : Linear (tSw sw poly) := by
  intro x y
  unfold tSw
  rw [linear_tBe, h.linear]

theorem genBe_sw {w : Nat} {sw : BitVec w → BitVec w} (h : SwapOk sw) (poly : BitVec w) (rows : Nat) (hr : 0 < rows) :
    ∃ t, genBe poly rows = some t ∧ TableOk (tSw sw poly) rows (t.map sw) := by
  obtain ⟨t, e1, e2⟩ := genBe_ok h.wide poly rows hr
  refine ⟨t, e1, fun r hr i hi => ?_⟩
  rw [List.getElem?_map, e2 r hr i hi, Option.map_some]
  congr 1
  generalize e : tBe poly (BitVec.ofNat 8 i) = x
  have : tSw sw poly (BitVec.ofNat 8 i) = sw x := by rw [tSw, e]
  rw [this]
  clear this e e1 e2 hr
  induction r generalizing x with
  | zero => rfl
  | succ r ih =>
    have e := step_sw h poly x
    rw [iter, ih, ← e]
    rfl

/-- What a checksum function must do: for all addresses, messages (with whatever follows them in memory) and initial values. -/
def IsLe {w : Nat} (f : Fn w) (poly : BitVec w) : Prop :=
  ∀ addr msg rest c, f addr (msg ++ rest) msg.length c = some (specLe poly c msg)
def IsBe {w : Nat} (f : Fn w) (poly : BitVec w) : Prop :=
  ∀ addr msg rest c, f addr (msg ++ rest) msg.length c = some (specBe poly c msg)

theorem mkLe_correct {w : Nat} (h1 : 8 ≤ w) (h2 : w ≤ 32) (poly : BitVec w) : IsLe (mkLe poly) poly := by
  intro addr msg rest c
  obtain ⟨t, e1, e2⟩ := genLe_ok h1 poly 8 (by omega)
  rw [mkLe, e1, Option.bind_some, inline_some h1 (linear_tLe poly) e2, runAll_narrow _ h2, run_le h1]
  rfl

theorem mkBe_correct {w : Nat} {sw : BitVec w → BitVec w} (h : SwapOk sw) (h2 : w ≤ 32) (poly : BitVec w) : IsBe (mkBe sw poly) poly := by
  intro addr msg rest c
  obtain ⟨t, e1, e2⟩ := genBe_sw h poly 8 (by omega)
  rw [mkBe, e1, Option.bind_some, inline_some h.wide (linear_tSw h poly) e2, runAll_narrow _ h2, run_be h, h.twice]

theorem mkLe1_correct {w : Nat} (h1 : 8 ≤ w) (poly : BitVec w) : IsLe (mkLe1 poly) poly := by
  intro addr msg rest c
  obtain ⟨t, e1, e2⟩ := genLe_ok h1 poly 1 (by omega)
  rw [mkLe1, e1, Option.bind_some, plain_some h1 (by omega) e2, run_le h1]
  rfl

theorem mkBe1_correct {w : Nat} {sw : BitVec w → BitVec w} (h : SwapOk sw) (poly : BitVec w) : IsBe (mkBe1 sw poly) poly := by
  intro addr msg rest c
  obtain ⟨t, e1, e2⟩ := genBe_sw h poly 1 (by omega)
  rw [mkBe1, e1, Option.bind_some, plain_some h.wide (by omega) e2, run_be h, h.twice]

/-- C60 for the checksums of 8, 16 and 32 bits, as shipped: the generated table and the eight-byte loop compute the bit-serial definition. What
is missing: the 64-bit ones, see `crc64_violated`. -/
theorem crc_partial : IsBe crc7 0x12 ∧ IsBe crc8 0x07 ∧ IsLe crc16 0xa001 ∧ IsLe crcCcitt 0x8408 ∧ IsBe crcItut 0x1021 ∧ IsBe crcT10dif 0x8bb7 ∧
    IsLe crc32 0xedb88320 :=
  ⟨mkBe_correct swap8 (by decide) _, mkBe_correct swap8 (by decide) _, mkLe_correct (by decide) (by decide) _, mkLe_correct (by decide) (by decide) _,
    mkBe_correct swap16 (by decide) _, mkBe_correct swap16 (by decide) _, mkLe_correct (by decide) (by decide) _⟩

/-- C60 for all checksums when the library is configured without the eight-byte loop. -/
theorem crc_plain : IsBe (mkBe1 same 0x12) (0x12 : BitVec 8) ∧ IsBe (mkBe1 same 0x07) (0x07 : BitVec 8) ∧ IsLe (mkLe1 0xa001) (0xa001 : BitVec 16) ∧
    IsLe (mkLe1 0x8408) (0x8408 : BitVec 16) ∧ IsBe (mkBe1 swab16 0x1021) 0x1021 ∧ IsBe (mkBe1 swab16 0x8bb7) 0x8bb7 ∧
    IsLe (mkLe1 0xedb88320) (0xedb88320 : BitVec 32) ∧ IsBe (mkBe1 swab64 0x42f0e1eba9ea3693) 0x42f0e1eba9ea3693 ∧
    IsLe (mkLe1 0x9a6c9329ac4bc9b5) (0x9a6c9329ac4bc9b5 : BitVec 64) :=
  ⟨mkBe1_correct swap8 _, mkBe1_correct swap8 _, mkLe1_correct (by decide) _, mkLe1_correct (by decide) _, mkBe1_correct swap16 _, mkBe1_correct swap16 _,
    mkLe1_correct (by decide) _, mkBe1_correct swap64 _, mkLe1_correct (by decide) _⟩

/-- C60: the value for a concatenation is obtained by continuing from the value of the first part, whatever the addresses. -/
theorem crc_concat {w : Nat} (f : Fn w) (poly : BitVec w) (h : IsLe f poly ∨ IsBe f poly) (addr addr1 addr2 : Nat) (a b r r1 r2 : List Byte) (c : BitVec w) :
    f addr (a ++ b ++ r) (a ++ b).length c = (f addr1 (a ++ r1) a.length c).bind fun c => f addr2 (b ++ r2) b.length c := by
  rcases h with h | h
  · rw [h, h, Option.bind_some, h]
    simp [specLe, List.foldl_append]
  · rw [h, h, Option.bind_some, h]
    simp [specBe, List.foldl_append]

/-! ### The 64-bit checksums -/

/-- The register with its lower or upper half kept. -/
def keepLow (c : BitVec 64) : BitVec 64 := c &&& 0xffffffff
def keepHigh (c : BitVec 64) : BitVec 64 := c &&& 0xffffffff00000000

/-- The checksum with the register cut before each of the first `n` groups of eight bytes. -/
def cutGroups (cut : BitVec 64 → BitVec 64) (spec : BitVec 64 → List Byte → BitVec 64) : Nat → BitVec 64 → List Byte → BitVec 64
  | 0, c, _ => c
  | n + 1, c, msg => cutGroups cut spec n (spec (cut c) (msg.take 8)) (msg.drop 8)

/-- What the eight-byte loop makes of a 64-bit checksum: bytes up to the first aligned address, groups of eight with the register cut, the rest. -/
def cutSpec (cut : BitVec 64 → BitVec 64) (spec : BitVec 64 → List Byte → BitVec 64) (addr : Nat) (c : BitVec 64) (msg : List Byte) : BitVec 64 :=
  let k := min msg.length ((4 - addr % 4) % 4)
  let n := (msg.length - k) / 8
  spec (cutGroups cut spec n (spec c (msg.take k)) (msg.drop k)) (msg.drop (k + 8 * n))

theorem keepLow_eq (c : BitVec 64) : (c.setWidth 32).setWidth 64 = keepLow c := by
  unfold keepLow
  apply BitVec.eq_of_toNat_eq
  rw [BitVec.toNat_and, BitVec.toNat_setWidth, BitVec.toNat_setWidth, show ((0xffffffff : BitVec 64)).toNat = 2 ^ 32 - 1 from rfl, Nat.and_two_pow_sub_one_eq_mod]
  exact Nat.mod_eq_of_lt (Nat.lt_trans (Nat.mod_lt _ (by decide)) (by decide))

theorem runSlices_le (poly : BitVec 64) : ∀ n c msg, runSlices (tLe poly) n c msg = cutGroups keepLow (specLe poly) n c msg := by
  intro n
  induction n with
  | zero => intro _ _; rfl
  | succ n ih => intro c msg; rw [runSlices, cutGroups, ih, keepLow_eq, run_le (by decide)]

theorem keepHigh_sw (c : BitVec 64) : ((swab64 c).setWidth 32).setWidth 64 = swab64 (keepHigh c) := by
  rw [keepLow_eq]
  unfold keepHigh keepLow
  apply BitVec.eq_of_getLsbD_eq
  intro i hi
  have h := Swab.swaps_correct.2.2.1
  rw [BitVec.getLsbD_and, h _ i hi, h _ i hi, BitVec.getLsbD_and]
  congr 1
  have : ∀ i : Fin 64, (0xffffffff : BitVec 64).getLsbD i = (0xffffffff00000000 : BitVec 64).getLsbD (swapped 8 64 i) := by decide +kernel
  exact this ⟨i, hi⟩

theorem runSlices_be (poly : BitVec 64) : ∀ n c msg,
    runSlices (tSw swab64 poly) n (swab64 c) msg = swab64 (cutGroups keepHigh (specBe poly) n c msg) := by
  intro n
  induction n with
  | zero => intro _ _; rfl
  | succ n ih => intro c msg; rw [runSlices, cutGroups, ← ih, keepHigh_sw, run_be swap64]

theorem rocksoft_exact (poly : BitVec 64) (addr : Nat) (msg rest : List Byte) (c : BitVec 64) :
    mkLe poly addr (msg ++ rest) msg.length c = some (cutSpec keepLow (specLe poly) addr c msg) := by
  obtain ⟨t, e1, e2⟩ := genLe_ok (by decide) poly 8 (by omega)
  rw [mkLe, e1, Option.bind_some, inline_some (by decide) (linear_tLe poly) e2]
  unfold runAll cutSpec same lead
  dsimp only
  rw [runSlices_le, run_le (by decide), run_le (by decide)]

theorem crc64_exact (poly : BitVec 64) (addr : Nat) (msg rest : List Byte) (c : BitVec 64) :
    mkBe swab64 poly addr (msg ++ rest) msg.length c = some (cutSpec keepHigh (specBe poly) addr c msg) := by
  obtain ⟨t, e1, e2⟩ := genBe_sw swap64 poly 8 (by omega)
  rw [mkBe, e1, Option.bind_some, inline_some (by decide) (linear_tSw swap64 poly) e2]
  unfold runAll cutSpec lead
  dsimp only
  rw [run_be swap64, runSlices_be, run_be swap64, swap64.twice]

/-- C60 for the 64-bit checksums, exactly: the register loses half its bits before every group of eight bytes. -/
theorem crc64_cut (addr : Nat) (msg rest : List Byte) (c : BitVec 64) :
    crcRocksoft addr (msg ++ rest) msg.length c = some (cutSpec keepLow (specLe 0x9a6c9329ac4bc9b5) addr c msg) ∧
    crc64 addr (msg ++ rest) msg.length c = some (cutSpec keepHigh (specBe 0x42f0e1eba9ea3693) addr c msg) :=
  ⟨rocksoft_exact _ _ _ _ _, crc64_exact _ _ _ _ _⟩

theorem cutSpec_short (cut : BitVec 64 → BitVec 64) (spec : BitVec 64 → List Byte → BitVec 64) (hs : ∀ c a b, spec c (a ++ b) = spec (spec c a) b)
    (addr : Nat) (c : BitVec 64) (msg : List Byte) (h : msg.length < 8 + (4 - addr % 4) % 4) : cutSpec cut spec addr c msg = spec c msg := by
  unfold cutSpec
  dsimp only
  rw [show (msg.length - min msg.length ((4 - addr % 4) % 4)) / 8 = 0 by omega, cutGroups, Nat.mul_zero, Nat.add_zero, ← hs, List.take_append_drop]

/-- C60 for the 64-bit checksums: right for messages with fewer than eight bytes after the first aligned address. -/
theorem crc64_partial (addr : Nat) (msg rest : List Byte) (c : BitVec 64) (h : msg.length < 8 + (4 - addr % 4) % 4) :
    crcRocksoft addr (msg ++ rest) msg.length c = some (specLe 0x9a6c9329ac4bc9b5 c msg) ∧
    crc64 addr (msg ++ rest) msg.length c = some (specBe 0x42f0e1eba9ea3693 c msg) := by
  obtain ⟨h1, h2⟩ := crc64_cut addr msg rest c
  rw [h1, h2, cutSpec_short _ _ _ _ _ _ h, cutSpec_short _ _ _ _ _ _ h]
  · exact ⟨rfl, rfl⟩
  · intro c a b; simp [specBe, List.foldl_append]
  · intro c a b; simp [specLe, List.foldl_append]

/-! ### Injectivity and bursts -/

theorem inj_of_kernel {w : Nat} {f : BitVec w → BitVec w} (h : Linear f) (hk : ∀ x, f x = 0#w → x = 0#w) {x y : BitVec w} (e : f x = f y) : x = y := by
  have h1 : f (x ^^^ y) = 0#w := by rw [h, e, BitVec.xor_self]
  have h2 := hk _ h1
  have h3 : x ^^^ (x ^^^ y) = x := by rw [h2, BitVec.xor_zero]
  rw [xor_cancel] at h3
  exact h3.symm

theorem shiftLe_inj {w : Nat} (poly : BitVec w) (hp : poly.msb = true) {x y : BitVec w} (e : shiftLe poly x = shiftLe poly y) : x = y := by
  have hw : 0 < w := by
    rcases Nat.eq_zero_or_pos w with e | e
    · subst e; simp [BitVec.msb_eq_getLsbD_last] at hp
    · exact e
  refine inj_of_kernel (linear_shiftLe poly) ?_ e
  intro c hc
  unfold shiftLe at hc
  have h0 : c.getLsbD 0 = false := by
    cases hb : c.getLsbD 0 with
    | false => rfl
    | true =>
      rw [hb, if_pos rfl] at hc
      have h1 := congrArg BitVec.msb hc
      rw [BitVec.msb_xor, hp, BitVec.msb_eq_getLsbD_last, BitVec.getLsbD_ushiftRight, BitVec.getLsbD_of_ge c _ (by omega)] at h1
      simp at h1
  rw [h0, if_neg (by simp), show (0 : BitVec w) = 0#w from rfl, BitVec.xor_zero] at hc
  apply BitVec.eq_of_getLsbD_eq
  intro i hi
  rw [BitVec.getLsbD_zero]
  rcases Nat.eq_zero_or_pos i with e | e
  · rw [e]; exact h0
  · have h1 := congrArg (fun v => v.getLsbD (i - 1)) hc
    rw [BitVec.getLsbD_ushiftRight, BitVec.getLsbD_zero, show 1 + (i - 1) = i by omega] at h1
    exact h1

theorem shiftBe_inj {w : Nat} (poly : BitVec w) (hp : poly.getLsbD 0 = true) {x y : BitVec w} (e : shiftBe poly x = shiftBe poly y) : x = y := by
  have hw : 0 < w := BitVec.lt_of_getLsbD hp
  refine inj_of_kernel (linear_shiftBe poly) ?_ e
  intro c hc
  unfold shiftBe at hc
  have h0 : c.msb = false := by
    cases hb : c.msb with
    | false => rfl
    | true =>
      rw [hb, if_pos rfl] at hc
      have h1 := congrArg (fun v => v.getLsbD 0) hc
      rw [BitVec.getLsbD_xor, hp, BitVec.getLsbD_shiftLeft] at h1
      simp at h1
  rw [h0, if_neg (by simp), show (0 : BitVec w) = 0#w from rfl, BitVec.xor_zero] at hc
  apply BitVec.eq_of_getLsbD_eq
  intro i hi
  rw [BitVec.getLsbD_zero]
  rcases Nat.lt_or_ge (i + 1) w with e | e
  · have h1 := congrArg (fun v => v.getLsbD (i + 1)) hc
    rw [BitVec.getLsbD_shiftLeft, BitVec.getLsbD_zero] at h1
    simpa [e] using h1
  · rw [BitVec.msb_eq_getLsbD_last] at h0
    rw [show i = w - 1 by omega]
    exact h0

theorem iter_inj {α : Type} {f : α → α} (h : ∀ x y, f x = f y → x = y) : ∀ n x y, iter f n x = iter f n y → x = y := by
  intro n
  induction n with
  | zero => intro x y e; exact e
  | succ n ih => intro x y e; exact h _ _ (ih _ _ e)

/-- Bits as a number, first bit lowest and first bit highest. -/
def numLow : List Bool → Nat
  | [] => 0
  | b :: bs => b.toNat + 2 * numLow bs
def numHigh : List Bool → Nat
  | [] => 0
  | b :: bs => b.toNat * 2 ^ bs.length + numHigh bs

theorem numLow_spec : ∀ bs, numLow bs < 2 ^ bs.length ∧ lowBits bs.length (numLow bs) = bs := by
  intro bs
  induction bs with
  | nil => exact ⟨by decide, rfl⟩
  | cons b bs ih =>
    have hb := Bool.toNat_le b
    refine ⟨by rw [numLow, List.length_cons, Nat.pow_succ]; omega, ?_⟩
    rw [List.length_cons, lowBits, numLow, show (b.toNat + 2 * numLow bs) / 2 = numLow bs by omega, ih.2, Nat.testBit_zero]
    congr 1
    cases b <;> simp <;> omega

theorem numHigh_spec : ∀ bs, numHigh bs < 2 ^ bs.length ∧ highBits bs.length (numHigh bs) = bs := by
  intro bs
  induction bs with
  | nil => exact ⟨by decide, rfl⟩
  | cons b bs ih =>
    have hb := Bool.toNat_le b
    have h1 : numHigh (b :: bs) = 2 ^ bs.length * b.toNat + numHigh bs := by rw [numHigh, Nat.mul_comm]
    rw [List.length_cons, highBits, h1, Nat.mul_add_mod, Nat.mod_eq_of_lt ih.1, ih.2]
    refine ⟨?_, ?_⟩
    · rw [Nat.pow_succ]
      cases b <;> simp <;> omega
    · congr 1
      rw [Nat.testBit_two_pow_mul_add _ ih.1, if_neg (by omega), Nat.sub_self]
      cases b <;> rfl

theorem foldl_inj {α β : Type} {f : α → β → α} (h : ∀ b x y, f x b = f y b → x = y) : ∀ (l : List β) x y, l.foldl f x = l.foldl f y → x = y := by
  intro l
  induction l with
  | nil => intro x y e; exact e
  | cons b l ih => intro x y e; exact h b _ _ (ih _ _ e)

theorem window_le {w : Nat} (poly : BitVec w) (hp : poly.msb = true) (c : BitVec w) (p x y q : List Bool) (hl : x.length = y.length) (hn : x.length ≤ w)
    (hne : x ≠ y) : (p ++ x ++ q).foldl (serialLe poly) c ≠ (p ++ y ++ q).foldl (serialLe poly) c := by
  intro e
  have hw : 0 < w := by
    rcases Nat.eq_zero_or_pos w with e | e
    · subst e; simp [BitVec.msb_eq_getLsbD_last] at hp
    · exact e
  rw [List.foldl_append, List.foldl_append, List.foldl_append, List.foldl_append] at e
  have e := foldl_inj (by
    intro b x y e
    rw [serialLe_shift hw, serialLe_shift hw] at e
    have := shiftLe_inj poly hp e
    rw [BitVec.xor_comm, BitVec.xor_comm y] at this
    have h2 := congrArg (BitVec.ofNat w b.toNat ^^^ ·) this
    rwa [xor_cancel, xor_cancel] at h2) _ _ _ e
  have h1 := numLow_spec x
  have h2 := numLow_spec y
  rw [← h1.2, ← h2.2, ← hl] at e
  rw [← hl] at h2
  rw [serial_lowBits poly _ hn _ h1.1, serial_lowBits poly _ hn _ h2.1] at e
  have e := iter_inj (fun x y => shiftLe_inj poly hp) _ _ _ e
  have e := congrArg (p.foldl (serialLe poly) c ^^^ ·) e
  rw [xor_cancel, xor_cancel] at e
  have hw2 : 2 ^ x.length ≤ 2 ^ w := Nat.pow_le_pow_right (by omega) hn
  have e := congrArg BitVec.toNat e
  rw [BitVec.toNat_ofNat, BitVec.toNat_ofNat, Nat.mod_eq_of_lt (by omega), Nat.mod_eq_of_lt (by omega)] at e
  refine hne ?_
  rw [← h1.2, ← h2.2, e]

theorem window_be {w : Nat} (poly : BitVec w) (hp : poly.getLsbD 0 = true) (c : BitVec w) (p x y q : List Bool) (hl : x.length = y.length)
    (hn : x.length ≤ w) (hne : x ≠ y) : (p ++ x ++ q).foldl (serialBe poly) c ≠ (p ++ y ++ q).foldl (serialBe poly) c := by
  intro e
  have hw : 0 < w := BitVec.lt_of_getLsbD hp
  rw [List.foldl_append, List.foldl_append, List.foldl_append, List.foldl_append] at e
  have e := foldl_inj (by
    intro b x y e
    rw [serialBe_shift hw, serialBe_shift hw] at e
    have := shiftBe_inj poly hp e
    rw [BitVec.xor_comm, BitVec.xor_comm y] at this
    have h2 := congrArg ((BitVec.ofNat w b.toNat <<< (w - 1)) ^^^ ·) this
    rwa [xor_cancel, xor_cancel] at h2) _ _ _ e
  have h1 := numHigh_spec x
  have h2 := numHigh_spec y
  rw [← h1.2, ← h2.2, ← hl] at e
  rw [← hl] at h2
  rw [serial_highBits poly _ hn _ h1.1, serial_highBits poly _ hn _ h2.1] at e
  have e := iter_inj (fun x y => shiftBe_inj poly hp) _ _ _ e
  have e := congrArg (p.foldl (serialBe poly) c ^^^ ·) e
  rw [xor_cancel, xor_cancel] at e
  have e := congrArg BitVec.toNat e
  have h3 : 2 ^ x.length * 2 ^ (w - x.length) = 2 ^ w := by rw [← Nat.pow_add]; congr 1; omega
  have h4 : ∀ n, n < 2 ^ x.length → n * 2 ^ (w - x.length) < 2 ^ w := by
    intro n hn
    rw [← h3]
    exact Nat.mul_lt_mul_of_pos_right hn (Nat.two_pow_pos _)
  simp only [BitVec.toNat_shiftLeft, BitVec.toNat_ofNat, Nat.shiftLeft_eq, Nat.mod_mul_mod] at e
  rw [Nat.mod_eq_of_lt (h4 _ h1.1), Nat.mod_eq_of_lt (h4 _ h2.1)] at e
  have e := Nat.eq_of_mul_eq_mul_right (Nat.two_pow_pos _) e
  refine hne ?_
  rw [← h1.2, ← h2.2, e]

/-- Two messages differ by a burst of at most `w` bits: as bit strings they agree outside a window of that length. -/
def Burst (w : Nat) (bits : Byte → List Bool) (m1 m2 : List Byte) : Prop :=
  ∃ p x y q, m1.flatMap bits = p ++ x ++ q ∧ m2.flatMap bits = p ++ y ++ q ∧ x.length = y.length ∧ x.length ≤ w ∧ x ≠ y

theorem burst_le {w : Nat} (f : Fn w) (poly : BitVec w) (h : IsLe f poly) (hp : poly.msb = true) (m1 m2 r1 r2 : List Byte) (a1 a2 : Nat) (c : BitVec w)
    (hb : Burst w bitsLe m1 m2) : f a1 (m1 ++ r1) m1.length c ≠ f a2 (m2 ++ r2) m2.length c := by
  obtain ⟨p, x, y, q, e1, e2, hl, hn, hne⟩ := hb
  rw [h, h, specLe, specLe, e1, e2]
  exact fun e => window_le poly hp c p x y q hl hn hne (Option.some.inj e)

theorem burst_be {w : Nat} (f : Fn w) (poly : BitVec w) (h : IsBe f poly) (hp : poly.getLsbD 0 = true) (m1 m2 r1 r2 : List Byte) (a1 a2 : Nat)
    (c : BitVec w) (hb : Burst w bitsBe m1 m2) : f a1 (m1 ++ r1) m1.length c ≠ f a2 (m2 ++ r2) m2.length c := by
  obtain ⟨p, x, y, q, e1, e2, hl, hn, hne⟩ := hb
  rw [h, h, specBe, specBe, e1, e2]
  exact fun e => window_be poly hp c p x y q hl hn hne (Option.some.inj e)

/-- The function gives two messages that differ by a burst of at most `n` bits different values, whatever the initial value and the addresses. -/
def Detects {w : Nat} (f : Fn w) (n : Nat) (bits : Byte → List Bool) : Prop :=
  ∀ m1 m2 r1 r2 a1 a2 c, Burst n bits m1 m2 → f a1 (m1 ++ r1) m1.length c ≠ f a2 (m2 ++ r2) m2.length c

/-- C73: every burst no longer than the width is detected. What is missing: CRC-7, see `crc7_burst`, and the 64-bit checksums, see
`crc64_burst_violated`. -/
theorem burst_partial : Detects crc8 8 bitsBe ∧ Detects crc16 16 bitsLe ∧ Detects crcCcitt 16 bitsLe ∧ Detects crcItut 16 bitsBe ∧
    Detects crcT10dif 16 bitsBe ∧ Detects crc32 32 bitsLe := by
  obtain ⟨-, h2, h3, h4, h5, h6, h7⟩ := crc_partial
  exact ⟨fun _ _ _ _ _ _ _ => burst_be _ _ h2 (by decide) _ _ _ _ _ _ _, fun _ _ _ _ _ _ _ => burst_le _ _ h3 (by decide) _ _ _ _ _ _ _,
    fun _ _ _ _ _ _ _ => burst_le _ _ h4 (by decide) _ _ _ _ _ _ _, fun _ _ _ _ _ _ _ => burst_be _ _ h5 (by decide) _ _ _ _ _ _ _,
    fun _ _ _ _ _ _ _ => burst_be _ _ h6 (by decide) _ _ _ _ _ _ _, fun _ _ _ _ _ _ _ => burst_le _ _ h7 (by decide) _ _ _ _ _ _ _⟩

/-- C73 without the eight-byte loop holds for the 64-bit checksums too. -/
theorem burst_plain64 : Detects (mkBe1 swab64 0x42f0e1eba9ea3693) 64 bitsBe ∧ Detects (mkLe1 (w := 64) 0x9a6c9329ac4bc9b5) 64 bitsLe := by
  obtain ⟨-, -, -, -, -, -, -, h1, h2⟩ := crc_plain
  exact ⟨fun _ _ _ _ _ _ _ => burst_be _ _ h1 (by decide) _ _ _ _ _ _ _, fun _ _ _ _ _ _ _ => burst_le _ _ h2 (by decide) _ _ _ _ _ _ _⟩

/-! ### CRC-7 -/

/-- The 7-bit register is kept in the upper seven bits of a byte. -/
def up7 (c : BitVec 7) : Byte := c.setWidth 8 <<< 1

theorem serial_up7 : ∀ (c : BitVec 7) (b : Bool), serialBe (0x12 : BitVec 8) (up7 c) b = up7 (serialBe 0x09 c b) := by decide +kernel
theorem up7_inj : ∀ x y : BitVec 7, up7 x = up7 y → x = y := by
  intro x y h
  have h1 : ∀ x : BitVec 7, (up7 x >>> 1).setWidth 7 = x := by decide +kernel
  rw [← h1 x, ← h1 y, h]

/-- C60: CRC-7 is the checksum of the polynomial x^7 + x^3 + 1 in the upper seven bits of its byte. -/
theorem crc7_correct (addr : Nat) (msg rest : List Byte) (c : BitVec 7) : crc7 addr (msg ++ rest) msg.length (up7 c) = some (up7 (specBe 0x09 c msg)) := by
  rw [crc_partial.1]
  congr 1
  unfold specBe
  generalize msg.flatMap bitsBe = bs
  induction bs generalizing c with
  | nil => rfl
  | cons b bs ih => rw [List.foldl_cons, List.foldl_cons, serial_up7, ih]

/-- C73: CRC-7 detects bursts of up to seven bits. -/
theorem crc7_burst (m1 m2 r1 r2 : List Byte) (a1 a2 : Nat) (c : BitVec 7) (hb : Burst 7 bitsBe m1 m2) :
    crc7 a1 (m1 ++ r1) m1.length (up7 c) ≠ crc7 a2 (m2 ++ r2) m2.length (up7 c) := by
  obtain ⟨p, x, y, q, e1, e2, hl, hn, hne⟩ := hb
  rw [crc7_correct, crc7_correct, specBe, specBe, e1, e2]
  exact fun e => window_be 0x09 (by decide) c p x y q hl hn hne (up7_inj _ _ (Option.some.inj e))

/-! ### The 64-bit checksums go wrong -/

theorem spec_inj_le (poly : BitVec 64) (hp : poly.msb = true) (msg : List Byte) (x y : BitVec 64) (h : specLe poly x msg = specLe poly y msg) : x = y :=
  foldl_inj (by
    intro b x y e
    rw [serialLe_shift (by decide), serialLe_shift (by decide)] at e
    have := shiftLe_inj poly hp e
    rw [BitVec.xor_comm, BitVec.xor_comm y] at this
    have h2 := congrArg (BitVec.ofNat 64 b.toNat ^^^ ·) this
    rwa [xor_cancel, xor_cancel] at h2) _ _ _ h

theorem spec_inj_be (poly : BitVec 64) (hp : poly.getLsbD 0 = true) (msg : List Byte) (x y : BitVec 64) (h : specBe poly x msg = specBe poly y msg) : x = y :=
  foldl_inj (by
    intro b x y e
    rw [serialBe_shift (by decide), serialBe_shift (by decide)] at e
    have := shiftBe_inj poly hp e
    rw [BitVec.xor_comm, BitVec.xor_comm y] at this
    have h2 := congrArg ((BitVec.ofNat 64 b.toNat <<< (64 - 1)) ^^^ ·) this
    rwa [xor_cancel, xor_cancel] at h2) _ _ _ h

/-- C60 fails for the 64-bit checksums: for every message of 8 to 15 bytes at an aligned address and every initial value with a non-zero half the
result is wrong. -/
theorem crc64_violated (addr : Nat) (msg rest : List Byte) (c : BitVec 64) (ha : addr % 4 = 0) (h1 : 8 ≤ msg.length) (h2 : msg.length < 16) :
    (keepLow c ≠ c → crcRocksoft addr (msg ++ rest) msg.length c ≠ some (specLe 0x9a6c9329ac4bc9b5 c msg)) ∧
    (keepHigh c ≠ c → crc64 addr (msg ++ rest) msg.length c ≠ some (specBe 0x42f0e1eba9ea3693 c msg)) := by
  obtain ⟨e1, e2⟩ := crc64_cut addr msg rest c
  have hcut : ∀ cut spec, (∀ c, spec c [] = c) → (∀ c a b, spec c (a ++ b) = spec (spec c a) b) → cutSpec cut spec addr c msg = spec (cut c) msg := by
    intro cut spec h0 hs
    unfold cutSpec
    dsimp only
    rw [show min msg.length ((4 - addr % 4) % 4) = 0 by omega, show (msg.length - 0) / 8 = 1 by omega, cutGroups, cutGroups, List.take_zero, h0, List.drop_zero,
      Nat.mul_one, Nat.zero_add, ← hs, List.take_append_drop]
  rw [e1, e2, hcut keepLow _ (fun _ => rfl) (by intro c a b; simp [specLe, List.foldl_append]),
    hcut keepHigh _ (fun _ => rfl) (by intro c a b; simp [specBe, List.foldl_append])]
  exact ⟨fun h e => h (spec_inj_le _ (by decide) _ _ _ (Option.some.inj e)), fun h e => h (spec_inj_be _ (by decide) _ _ _ (Option.some.inj e))⟩

theorem cutSpec_two (cut : BitVec 64 → BitVec 64) (spec : BitVec 64 → List Byte → BitVec 64) (h0 : ∀ c, spec c [] = c) (c : BitVec 64) (a b z : List Byte)
    (ha : a.length = 8) (hb : b.length = 8) (hz : 8 ≤ z.length) (hc : cut (spec (cut c) a) = cut (spec (cut c) b)) :
    cutSpec cut spec 0 c (a ++ z) = cutSpec cut spec 0 c (b ++ z) := by
  have key : ∀ a : List Byte, a.length = 8 → cutSpec cut spec 0 c (a ++ z) =
      spec (cutGroups cut spec ((z.length - 8) / 8) (spec (cut (spec (cut c) a)) (z.take 8)) (z.drop 8)) (z.drop (8 + 8 * ((z.length - 8) / 8))) := by
    intro a ha
    unfold cutSpec
    dsimp only
    have h1 : min (a ++ z).length ((4 - 0 % 4) % 4) = 0 := by simp
    have h2 : ((a ++ z).length - 0) / 8 = (z.length - 8) / 8 + 1 + 1 := by rw [List.length_append]; omega
    rw [h1, h2, List.take_zero, List.drop_zero, h0, cutGroups, cutGroups, List.take_append_of_le_length (by omega), List.take_of_length_le (by omega),
      List.drop_append_of_le_length (by omega), List.drop_of_length_le (by omega), List.nil_append]
    congr 1
    rw [show 0 + 8 * ((z.length - 8) / 8 + 1 + 1) = 8 + (8 + 8 * ((z.length - 8) / 8)) by omega, ← List.drop_drop, List.drop_append_of_le_length (by omega),
      List.drop_of_length_le (l := a) (by omega), List.nil_append]
  rw [key a ha, key b hb, hc]

/-- C73 fails for the 64-bit checksums: at an aligned address two messages that differ only in their first eight bytes, one burst of 64 bits, get the
same value whatever follows. -/
theorem crc64_burst_violated (z r : List Byte) (hz : 8 ≤ z.length) :
    crcRocksoft 0 ([0, 0, 0, 0, 0, 0, 0, 0] ++ z ++ r) (8 + z.length) 0 =
      crcRocksoft 0 ([0xb3, 0xd3, 0x1e, 0xfc, 0x3b, 0x9d, 0x36, 0x09] ++ z ++ r) (8 + z.length) 0 ∧
    crc64 0 ([0, 0, 0, 0, 0, 0, 0, 0] ++ z ++ r) (8 + z.length) 0 =
      crc64 0 ([0xe0, 0xf5, 0x0a, 0xf2, 0x28, 0x58, 0xfb, 0x10] ++ z ++ r) (8 + z.length) 0 := by
  have hl : ∀ a : List Byte, a.length = 8 → 8 + z.length = (a ++ z).length := fun a h => by rw [List.length_append, h]
  constructor
  · conv => lhs; rw [hl [0, 0, 0, 0, 0, 0, 0, 0] rfl, (crc64_cut _ _ _ _).1]
    conv => rhs; rw [hl [0xb3, 0xd3, 0x1e, 0xfc, 0x3b, 0x9d, 0x36, 0x09] rfl, (crc64_cut _ _ _ _).1]
    rw [cutSpec_two keepLow _ (fun _ => rfl) 0 _ [0xb3, 0xd3, 0x1e, 0xfc, 0x3b, 0x9d, 0x36, 0x09] z rfl rfl hz (by decide +kernel)]
  · conv => lhs; rw [hl [0, 0, 0, 0, 0, 0, 0, 0] rfl, (crc64_cut _ _ _ _).2]
    conv => rhs; rw [hl [0xe0, 0xf5, 0x0a, 0xf2, 0x28, 0x58, 0xfb, 0x10] rfl, (crc64_cut _ _ _ _).2]
    rw [cutSpec_two keepHigh _ (fun _ => rfl) 0 _ [0xe0, 0xf5, 0x0a, 0xf2, 0x28, 0x58, 0xfb, 0x10] z rfl rfl hz (by decide +kernel)]

/-! ### CRC-4 -/

/-- A nibble, most significant bit first. -/
theorem nibble : ∀ (c n : BitVec 4), crc4Table[(c ^^^ n).toNat]? =
    some (([n.getLsbD 3, n.getLsbD 2, n.getLsbD 1, n.getLsbD 0].foldl (serialBe 7) c).setWidth 8) := by decide +kernel

theorem crc4Byte_some (crc data : Byte) : crc4Byte crc data = some ((specBe 7 (crc.setWidth 4) [data]).setWidth 8) := by
  have h1 : ((crc ^^^ (data >>> 4)) &&& 0xf).toNat = (crc.setWidth 4 ^^^ (data >>> 4).setWidth 4).toNat := by
    rw [← BitVec.setWidth_xor, BitVec.toNat_and, BitVec.toNat_setWidth, show ((0xf : Byte)).toNat = 2 ^ 4 - 1 from rfl, Nat.and_two_pow_sub_one_eq_mod]
  have h2 : ∀ x : BitVec 4, ((x.setWidth 8 ^^^ (data &&& 0xf)) &&& 0xf).toNat = (x ^^^ data.setWidth 4).toNat := by
    have : ∀ (d : Byte), d.setWidth 4 = (d &&& 0xf).setWidth 4 ∧ (d &&& 0xf) = (d.setWidth 4).setWidth 8 := by decide +kernel
    intro x
    rw [(this data).2]
    generalize data.setWidth 4 = y
    revert x y
    decide +kernel
  unfold crc4Byte
  rw [h1, nibble, Option.bind_some, h2, nibble]
  congr 2
  have : bitsBe data = [((data >>> 4).setWidth 4).getLsbD 3, ((data >>> 4).setWidth 4).getLsbD 2, ((data >>> 4).setWidth 4).getLsbD 1,
      ((data >>> 4).setWidth 4).getLsbD 0] ++ [(data.setWidth 4).getLsbD 3, (data.setWidth 4).getLsbD 2, (data.setWidth 4).getLsbD 1, (data.setWidth 4).getLsbD 0] := by
    clear h1 h2
    revert data
    decide +kernel
  rw [specBe, List.flatMap_cons, List.flatMap_nil, List.append_nil, this, List.foldl_append]

/-- The bytes CRC-4 sees: whole bytes, then the low bits of the next one with the missing high bits read as zero. -/
def crc4Bytes (src : List Byte) (bits : Nat) : List Byte :=
  src.take (bits / 8) ++ (if bits % 8 = 0 then [] else (src.drop (bits / 8)).take 1 |>.map fun d => BitVec.ofNat 8 (d.toNat % 2 ^ (bits % 8)))

/-- The value returned: unchanged for no bits at all, otherwise the 4-bit register. -/
def crc4Value (crc : Byte) (msg : List Byte) : Byte := if msg = [] then crc else (specBe 7 (crc.setWidth 4) msg).setWidth 8

theorem crc4Value_cons (crc d : Byte) (msg : List Byte) :
    crc4Value ((specBe 7 (crc.setWidth 4) [d]).setWidth 8) msg = crc4Value crc (d :: msg) := by
  unfold crc4Value
  have h1 : ∀ x : BitVec 4, (x.setWidth 8).setWidth 4 = x := by decide
  rw [if_neg (List.cons_ne_nil _ _), h1]
  split
  · rename_i h; subst h; rfl
  · congr 1

theorem mask_byte (bits : Nat) (d : Byte) : BitVec.ofNat 8 (2 ^ bits - 1) &&& d = BitVec.ofNat 8 (d.toNat % 2 ^ bits) := by
  apply BitVec.eq_of_getLsbD_eq
  intro i hi
  rw [BitVec.getLsbD_and, BitVec.getLsbD_ofNat, BitVec.getLsbD_ofNat, Nat.testBit_two_pow_sub_one, Nat.testBit_mod_two_pow, BitVec.testBit_toNat]
  simp [hi]

theorem crc4Bytes_cons (d : Byte) (src : List Byte) (bits : Nat) (h : 8 ≤ bits) : crc4Bytes (d :: src) bits = d :: crc4Bytes src (bits - 8) := by
  unfold crc4Bytes
  rw [show bits / 8 = (bits - 8) / 8 + 1 by omega, show bits % 8 = (bits - 8) % 8 by omega]
  rfl

theorem crc4Tail_some : ∀ fuel bits src crc, bits < 32 → (bits + 7) / 8 < fuel → bits ≤ 8 * src.length →
    crc4Tail fuel bits src crc = some (crc4Value crc (crc4Bytes src bits)) := by
  intro fuel
  induction fuel with
  | zero => intro _ _ _ _ h; omega
  | succ fuel ih =>
    intro bits src crc hb hf hl
    rw [crc4Tail.eq_def]
    dsimp only
    by_cases h0 : bits = 0
    · subst h0
      simp [crc4Bytes, crc4Value]
    · rw [if_neg (by omega)]
      cases src with
      | nil => simp at hl; omega
      | cons d src =>
        dsimp only
        rw [crc4Byte_some, Option.bind_some, mask_byte]
        by_cases h8 : 8 ≤ bits
        · rw [show min bits 8 = 8 by omega]
          have hfull : BitVec.ofNat 8 (d.toNat % 2 ^ bits) = d := by
            have h1 := d.isLt
            have h2 : 2 ^ 8 ≤ 2 ^ bits := Nat.pow_le_pow_right (by omega) h8
            rw [Nat.mod_eq_of_lt (by omega), BitVec.ofNat_toNat, BitVec.setWidth_eq]
          rcases Nat.eq_zero_or_pos (bits - 8) with hz | hz
          · cases fuel with
            | zero => omega
            | succ fuel =>
              rw [hfull, crc4Bytes_cons _ _ _ h8, ← crc4Value_cons, ih _ _ _ (by omega) (by omega) (by simp at hl; omega)]
          · rw [hfull, crc4Bytes_cons _ _ _ h8, ← crc4Value_cons, ih _ _ _ (by omega) (by omega) (by simp at hl; omega)]
        · rw [show bits - min bits 8 = 0 by omega, ih _ _ _ (by omega) (by omega) (by omega)]
          have h1 : bits / 8 = 0 := by omega
          have h2 : bits % 8 = bits := by omega
          have h3 : crc4Bytes (d :: src) bits = [BitVec.ofNat 8 (d.toNat % 2 ^ bits)] := by
            unfold crc4Bytes
            rw [h1, h2, if_neg h0]
            rfl
          have h4 : crc4Bytes src 0 = [] := by simp [crc4Bytes]
          rw [h3, h4, crc4Value_cons]

/-- C60 for CRC-4, for every number of bits: the register of x^4 + x^2 + x + 1 run over the bytes that cover the bits. -/
theorem crc4_correct (src : List Byte) (bits : Nat) (crc : Byte) (h : bits ≤ 8 * src.length) :
    crc4 src bits crc = some (crc4Value crc (crc4Bytes src bits)) := by
  unfold crc4
  induction bits using Nat.strongRecOn generalizing src crc with
  | _ bits ih =>
    rcases Nat.lt_or_ge bits 32 with hb | hb
    · rw [show crc4Loop bits src crc = crc4Tail 5 bits src crc by
        unfold crc4Loop
        split
        · omega
        · rfl]
      exact crc4Tail_some 5 bits src crc hb (by omega) h
    · obtain ⟨b, rfl⟩ : ∃ b, bits = b + 32 := ⟨bits - 32, by omega⟩
      match src, h with
      | [], h => simp at h
      | [_], h => simp at h
      | [_, _], h => simp at h
      | [_, _, _], h => simp at h
      | x0 :: x1 :: x2 :: x3 :: src, h =>
        rw [crc4Loop]
        rw [crc4Byte_some, Option.bind_some, crc4Byte_some, Option.bind_some, crc4Byte_some, Option.bind_some, crc4Byte_some, Option.bind_some,
          ih b (by omega) _ _ (by simp at h; omega), crc4Value_cons, crc4Value_cons, crc4Value_cons, crc4Value_cons,
          crc4Bytes_cons _ _ _ (by omega), crc4Bytes_cons _ _ _ (by omega), crc4Bytes_cons _ _ _ (by omega), crc4Bytes_cons _ _ _ (by omega)]
        congr 4

/-- C60 fails for CRC-4 when the number of bits is no multiple of eight: the last bits are preceded by zeros that the definition does not have. -/
theorem crc4_violated : crc4 [0x01, 0x05] 12 0 = some 0x02 ∧
    (([false, false, false, false, false, false, false, true] ++ [false, true, false, true]).foldl (serialBe (7 : BitVec 4)) 0) = 0x0e := by decide +kernel

/-! Non-trivial cases: the check values of the usual tables for the message "123456789". -/
def check : List Byte := [0x31, 0x32, 0x33, 0x34, 0x35, 0x36, 0x37, 0x38, 0x39]
example : specLe (0xa001 : BitVec 16) 0 check = 0xbb3d := by decide +kernel
example : specLe (0x8408 : BitVec 16) 0 check = 0x2189 := by decide +kernel
example : specBe (0x1021 : BitVec 16) 0 check = 0x31c3 := by decide +kernel
example : specBe (0x8bb7 : BitVec 16) 0 check = 0xd0db := by decide +kernel
example : ~~~ specLe (0xedb88320 : BitVec 32) 0xffffffff check = 0xcbf43926 := by decide +kernel
example : specBe (0x42f0e1eba9ea3693 : BitVec 64) 0 check = 0x6c40df5f0b497347 := by decide +kernel
example : ~~~ specLe (0x9a6c9329ac4bc9b5 : BitVec 64) 0xffffffffffffffff check = 0xae8b14860a799888 := by decide +kernel
example : specBe (0x07 : BitVec 8) 0 check = 0xf4 := by decide +kernel
example : specBe (0x09 : BitVec 7) 0 check = 0x75 := by decide +kernel
example : keepLow 0xffffffffffffffff ≠ 0xffffffffffffffff ∧ keepHigh 0xffffffffffffffff ≠ 0xffffffffffffffff := by decide
example : Burst 8 bitsBe [1, 2, 3] [1, 0xf2, 3] := ⟨bitsBe 1, bitsBe 2, bitsBe 0xf2, bitsBe 3, rfl, rfl, rfl, by decide, by decide⟩

end Bfdev.Crc

import Verif.Base32.Model
import Verif.Base32.Spec
set_option linter.unusedSimpArgs false
namespace Bfdev.Base32
open Spec

theorem alphabet_eq : alphabet = encodeTable := by decide +kernel

theorem pad_eq : pad = 61 := by decide

theorem toNat_of_high (x : BitVec 8) : x.getLsbD 7 = false → x.getLsbD 6 = false → x.getLsbD 5 = false →
    x.toNat = ofBits [x.getLsbD 4, x.getLsbD 3, x.getLsbD 2, x.getLsbD 1, x.getLsbD 0] := by
  revert x; decide +kernel

theorem ofBits5_lt (a b c d e : Bool) : ofBits [a,b,c,d,e] < 32 := by
  revert a b c d e; decide

theorem enc_eq (x : BitVec 8) (h7 : x.getLsbD 7 = false) (h6 : x.getLsbD 6 = false) (h5 : x.getLsbD 5 = false) :
    enc x = some (alphabet.getD (ofBits [x.getLsbD 4, x.getLsbD 3, x.getLsbD 2, x.getLsbD 1, x.getLsbD 0]) 0) := by
  have h := toNat_of_high x h7 h6 h5
  have hl := ofBits5_lt (x.getLsbD 4) (x.getLsbD 3) (x.getLsbD 2) (x.getLsbD 1) (x.getLsbD 0)
  unfold enc
  rw [h, alphabet_eq]
  have : encodeTable.length = 32 := by decide
  rw [List.getElem?_eq_getElem (by omega), List.getD_eq_getElem?_getD, List.getElem?_eq_getElem (by omega)]
  rfl

theorem encode_eq_spec (data : List Byte) : encode data = some (Spec.encode data) := by
  fun_induction Base32.encode data with
  | case1 a b c d e rest ih =>
    rw [enc_eq _ (by simp) (by simp) (by simp), enc_eq _ (by simp) (by simp) (by simp), enc_eq _ (by simp) (by simp) (by simp), enc_eq _ (by simp) (by simp) (by simp), enc_eq _ (by simp) (by simp) (by simp), enc_eq _ (by simp) (by simp) (by simp), enc_eq _ (by simp) (by simp) (by simp), enc_eq _ (by simp) (by simp) (by simp), ih]
    simp [Spec.encode, bitStream, bits8, quintets, pad_eq]
    omega
  | case2 a b c d =>
    rw [enc_eq _ (by simp) (by simp) (by simp), enc_eq _ (by simp) (by simp) (by simp), enc_eq _ (by simp) (by simp) (by simp), enc_eq _ (by simp) (by simp) (by simp), enc_eq _ (by simp) (by simp) (by simp), enc_eq _ (by simp) (by simp) (by simp), enc_eq _ (by simp) (by simp) (by simp)]
    simp [Spec.encode, bitStream, bits8, quintets, pad_eq]
  | case3 a b c =>
    rw [enc_eq _ (by simp) (by simp) (by simp), enc_eq _ (by simp) (by simp) (by simp), enc_eq _ (by simp) (by simp) (by simp), enc_eq _ (by simp) (by simp) (by simp), enc_eq _ (by simp) (by simp) (by simp)]
    simp [Spec.encode, bitStream, bits8, quintets, pad_eq]
  | case4 a b =>
    rw [enc_eq _ (by simp) (by simp) (by simp), enc_eq _ (by simp) (by simp) (by simp), enc_eq _ (by simp) (by simp) (by simp), enc_eq _ (by simp) (by simp) (by simp)]
    simp [Spec.encode, bitStream, bits8, quintets, pad_eq]
  | case5 a =>
    rw [enc_eq _ (by simp) (by simp) (by simp), enc_eq _ (by simp) (by simp) (by simp)]
    simp [Spec.encode, bitStream, bits8, quintets, pad_eq]
  | case6 => simp [Spec.encode, bitStream, quintets]

theorem decodeTable_valid (c : BitVec 8) : decodeTable c ≠ 0xff →
    c ≠ pad ∧ c ∈ alphabet ∧ (decodeTable c).getLsbD 7 = false ∧ (decodeTable c).getLsbD 6 = false ∧
    (decodeTable c).getLsbD 5 = false ∧
    bits5 (symValue c) = [(decodeTable c).getLsbD 4, (decodeTable c).getLsbD 3,
      (decodeTable c).getLsbD 2, (decodeTable c).getLsbD 1, (decodeTable c).getLsbD 0] := by
  revert c; decide +kernel

theorem decodeTable_invalid (c : BitVec 8) : decodeTable c = 0xff ↔ c ∉ alphabet := by
  revert c; decide +kernel

theorem pad_not_mem : pad ∉ alphabet := by decide +kernel

/-- Decoder invariant: `S` is the bit stream of the symbols consumed so far, `k` their number (mod 8 is
`bstate`), `P` the completed output bytes. -/
def Inv (k : Nat) (P buff : List Byte) (S : List Bool) : Prop :=
  ∃ tl, buff = P ++ tl ∧ (k % 8 = 0 → bitStream P = S) ∧
    (k % 8 ≠ 0 → ∃ x tl', tl = x :: tl' ∧ bitStream P ++ bits8 x = S ++ List.replicate (8 - 5 * (k % 8) % 8) false)

theorem bitStream_append (P Q : List Byte) : bitStream (P ++ Q) = bitStream P ++ bitStream Q := by
  simp [bitStream]

/-- cells touched by step `k` -/
def touch (k : Nat) : Nat := if k % 8 = 0 ∨ k % 8 = 2 ∨ k % 8 = 5 ∨ k % 8 = 7 then 1 else 2

/-- cells completed by step `k` -/
def adv (k : Nat) : Nat := if k % 8 = 0 ∨ k % 8 = 2 ∨ k % 8 = 5 then 0 else 1

theorem step0 (d : BitVec 8) (h7 : d.getLsbD 7 = false) (h6 : d.getLsbD 6 = false) (h5 : d.getLsbD 5 = false)
    (k : Nat) (hk : k % 8 = 0) (P buff : List Byte) (S : List Bool) (hI : Inv k P buff S)
    (hl : P.length + touch k ≤ buff.length) :
    ∃ P' buff', decodeStep d (k % 8) P.length buff = some (P'.length, buff') ∧
      Inv (k + 1) P' buff' (S ++ [d.getLsbD 4, d.getLsbD 3, d.getLsbD 2, d.getLsbD 1, d.getLsbD 0]) ∧
      P'.length = P.length + adv k ∧ buff'.length = buff.length ∧
      (∀ j, P.length + touch k ≤ j → buff'[j]? = buff[j]?) := by
  obtain ⟨tl, rfl, h0, h1⟩ := hI
  simp at h7 h6 h5
  have hS := h0 hk
  simp [hk, touch] at hl
  match tl, hl with
  | x :: tl', _ =>
    refine ⟨P, P ++ (d <<< 3) :: tl', ?_, ⟨_, rfl, ?_, ?_⟩, ?_, ?_, ?_⟩
    · simp [hk, decodeStep]
    · intro h; omega
    · intro _
      refine ⟨_, _, rfl, ?_⟩
      have : (k + 1) % 8 = 1 := by omega
      simp [this, hS, bits8]
    · simp [hk, adv]
    · simp
    · intro j hj
      simp [hk, touch] at hj
      rw [List.getElem?_append_right (by omega), List.getElem?_append_right (by omega)]
      have : j - P.length = (j - P.length - 1) + 1 := by omega
      rw [this]; simp

theorem step1 (d : BitVec 8) (h7 : d.getLsbD 7 = false) (h6 : d.getLsbD 6 = false) (h5 : d.getLsbD 5 = false)
    (k : Nat) (hk : k % 8 = 1) (P buff : List Byte) (S : List Bool) (hI : Inv k P buff S)
    (hl : P.length + touch k ≤ buff.length) :
    ∃ P' buff', decodeStep d (k % 8) P.length buff = some (P'.length, buff') ∧
      Inv (k + 1) P' buff' (S ++ [d.getLsbD 4, d.getLsbD 3, d.getLsbD 2, d.getLsbD 1, d.getLsbD 0]) ∧
      P'.length = P.length + adv k ∧ buff'.length = buff.length ∧
      (∀ j, P.length + touch k ≤ j → buff'[j]? = buff[j]?) := by
  obtain ⟨tl, rfl, h0, h1⟩ := hI
  simp at h7 h6 h5
  obtain ⟨x, tl', rfl, hx⟩ := h1 (by omega)
  have hx' : bitStream P ++ [x.getLsbD 7, x.getLsbD 6, x.getLsbD 5, x.getLsbD 4, x.getLsbD 3] = S ∧ [x.getLsbD 2, x.getLsbD 1, x.getLsbD 0] = [false, false, false] := by
    refine List.append_inj' ?_ (by simp)
    simpa [hk, bits8] using hx
  obtain ⟨hS, hz⟩ := hx'
  simp at hz
  simp [hk, touch] at hl
  match tl', hl with
  | y :: tl', _ =>
    refine ⟨P ++ [x ||| ((d >>> 2) &&& 0x7)], (P ++ [x ||| ((d >>> 2) &&& 0x7)]) ++ (d <<< 6) :: tl', ?_, ⟨_, rfl, ?_, ?_⟩, ?_, ?_, ?_⟩
    · simp [hk, decodeStep, orNext]
    · intro h; omega
    · intro _
      refine ⟨_, _, rfl, ?_⟩
      have : (k + 1) % 8 = 2 := by omega
      simp [this, ← hS, bits8, bitStream_append, bitStream, hz, h7, h6, h5]
    · simp [hk, adv]
    · simp
    · intro j hj
      simp [hk, touch] at hj
      rw [List.getElem?_append_right (by simp; omega), List.getElem?_append_right (by omega)]
      have : j - P.length = (j - P.length - 2) + 1 + 1 := by omega
      rw [this]; simp
      have : j - (P.length + 1) = (j - P.length - 2) + 1 := by omega
      rw [this]; simp

theorem step2 (d : BitVec 8) (h7 : d.getLsbD 7 = false) (h6 : d.getLsbD 6 = false) (h5 : d.getLsbD 5 = false)
    (k : Nat) (hk : k % 8 = 2) (P buff : List Byte) (S : List Bool) (hI : Inv k P buff S)
    (hl : P.length + touch k ≤ buff.length) :
    ∃ P' buff', decodeStep d (k % 8) P.length buff = some (P'.length, buff') ∧
      Inv (k + 1) P' buff' (S ++ [d.getLsbD 4, d.getLsbD 3, d.getLsbD 2, d.getLsbD 1, d.getLsbD 0]) ∧
      P'.length = P.length + adv k ∧ buff'.length = buff.length ∧
      (∀ j, P.length + touch k ≤ j → buff'[j]? = buff[j]?) := by
  obtain ⟨tl, rfl, h0, h1⟩ := hI
  simp at h7 h6 h5
  obtain ⟨x, tl', rfl, hx⟩ := h1 (by omega)
  have hx' : bitStream P ++ [x.getLsbD 7, x.getLsbD 6] = S ∧ [x.getLsbD 5, x.getLsbD 4, x.getLsbD 3, x.getLsbD 2, x.getLsbD 1, x.getLsbD 0] = [false, false, false, false, false, false] := by
    refine List.append_inj' ?_ (by simp)
    simpa [hk, bits8] using hx
  obtain ⟨hS, hz⟩ := hx'
  simp at hz
  refine ⟨P, P ++ (x ||| ((d &&& 0x1f) <<< 1)) :: tl', ?_, ⟨_, rfl, ?_, ?_⟩, ?_, ?_, ?_⟩
  · simp [hk, decodeStep]
  · intro h; omega
  · intro _
    refine ⟨_, _, rfl, ?_⟩
    have : (k + 1) % 8 = 3 := by omega
    simp [this, ← hS, bits8, bitStream_append, bitStream, hz, h7, h6, h5]
  · simp [hk, adv]
  · simp
  · intro j hj
    simp [hk, touch] at hj
    rw [List.getElem?_append_right (by omega), List.getElem?_append_right (by omega)]
    have : j - P.length = (j - P.length - 1) + 1 := by omega
    rw [this]; simp

theorem step3 (d : BitVec 8) (h7 : d.getLsbD 7 = false) (h6 : d.getLsbD 6 = false) (h5 : d.getLsbD 5 = false)
    (k : Nat) (hk : k % 8 = 3) (P buff : List Byte) (S : List Bool) (hI : Inv k P buff S)
    (hl : P.length + touch k ≤ buff.length) :
    ∃ P' buff', decodeStep d (k % 8) P.length buff = some (P'.length, buff') ∧
      Inv (k + 1) P' buff' (S ++ [d.getLsbD 4, d.getLsbD 3, d.getLsbD 2, d.getLsbD 1, d.getLsbD 0]) ∧
      P'.length = P.length + adv k ∧ buff'.length = buff.length ∧
      (∀ j, P.length + touch k ≤ j → buff'[j]? = buff[j]?) := by
  obtain ⟨tl, rfl, h0, h1⟩ := hI
  simp at h7 h6 h5
  obtain ⟨x, tl', rfl, hx⟩ := h1 (by omega)
  have hx' : bitStream P ++ [x.getLsbD 7, x.getLsbD 6, x.getLsbD 5, x.getLsbD 4, x.getLsbD 3, x.getLsbD 2, x.getLsbD 1] = S ∧ [x.getLsbD 0] = [false] := by
    refine List.append_inj' ?_ (by simp)
    simpa [hk, bits8] using hx
  obtain ⟨hS, hz⟩ := hx'
  simp at hz
  simp [hk, touch] at hl
  match tl', hl with
  | y :: tl', _ =>
    refine ⟨P ++ [x ||| ((d >>> 4) &&& 0x1)], (P ++ [x ||| ((d >>> 4) &&& 0x1)]) ++ (d <<< 4) :: tl', ?_, ⟨_, rfl, ?_, ?_⟩, ?_, ?_, ?_⟩
    · simp [hk, decodeStep, orNext]
    · intro h; omega
    · intro _
      refine ⟨_, _, rfl, ?_⟩
      have : (k + 1) % 8 = 4 := by omega
      simp [this, ← hS, bits8, bitStream_append, bitStream, hz, h7, h6, h5]
    · simp [hk, adv]
    · simp
    · intro j hj
      simp [hk, touch] at hj
      rw [List.getElem?_append_right (by simp; omega), List.getElem?_append_right (by omega)]
      have : j - P.length = (j - P.length - 2) + 1 + 1 := by omega
      rw [this]; simp
      have : j - (P.length + 1) = (j - P.length - 2) + 1 := by omega
      rw [this]; simp

theorem step4 (d : BitVec 8) (h7 : d.getLsbD 7 = false) (h6 : d.getLsbD 6 = false) (h5 : d.getLsbD 5 = false)
    (k : Nat) (hk : k % 8 = 4) (P buff : List Byte) (S : List Bool) (hI : Inv k P buff S)
    (hl : P.length + touch k ≤ buff.length) :
    ∃ P' buff', decodeStep d (k % 8) P.length buff = some (P'.length, buff') ∧
      Inv (k + 1) P' buff' (S ++ [d.getLsbD 4, d.getLsbD 3, d.getLsbD 2, d.getLsbD 1, d.getLsbD 0]) ∧
      P'.length = P.length + adv k ∧ buff'.length = buff.length ∧
      (∀ j, P.length + touch k ≤ j → buff'[j]? = buff[j]?) := by
  obtain ⟨tl, rfl, h0, h1⟩ := hI
  simp at h7 h6 h5
  obtain ⟨x, tl', rfl, hx⟩ := h1 (by omega)
  have hx' : bitStream P ++ [x.getLsbD 7, x.getLsbD 6, x.getLsbD 5, x.getLsbD 4] = S ∧ [x.getLsbD 3, x.getLsbD 2, x.getLsbD 1, x.getLsbD 0] = [false, false, false, false] := by
    refine List.append_inj' ?_ (by simp)
    simpa [hk, bits8] using hx
  obtain ⟨hS, hz⟩ := hx'
  simp at hz
  simp [hk, touch] at hl
  match tl', hl with
  | y :: tl', _ =>
    refine ⟨P ++ [x ||| ((d >>> 1) &&& 0xf)], (P ++ [x ||| ((d >>> 1) &&& 0xf)]) ++ (d <<< 7) :: tl', ?_, ⟨_, rfl, ?_, ?_⟩, ?_, ?_, ?_⟩
    · simp [hk, decodeStep, orNext]
    · intro h; omega
    · intro _
      refine ⟨_, _, rfl, ?_⟩
      have : (k + 1) % 8 = 5 := by omega
      simp [this, ← hS, bits8, bitStream_append, bitStream, hz, h7, h6, h5]
    · simp [hk, adv]
    · simp
    · intro j hj
      simp [hk, touch] at hj
      rw [List.getElem?_append_right (by simp; omega), List.getElem?_append_right (by omega)]
      have : j - P.length = (j - P.length - 2) + 1 + 1 := by omega
      rw [this]; simp
      have : j - (P.length + 1) = (j - P.length - 2) + 1 := by omega
      rw [this]; simp

theorem step5 (d : BitVec 8) (h7 : d.getLsbD 7 = false) (h6 : d.getLsbD 6 = false) (h5 : d.getLsbD 5 = false)
    (k : Nat) (hk : k % 8 = 5) (P buff : List Byte) (S : List Bool) (hI : Inv k P buff S)
    (hl : P.length + touch k ≤ buff.length) :
    ∃ P' buff', decodeStep d (k % 8) P.length buff = some (P'.length, buff') ∧
      Inv (k + 1) P' buff' (S ++ [d.getLsbD 4, d.getLsbD 3, d.getLsbD 2, d.getLsbD 1, d.getLsbD 0]) ∧
      P'.length = P.length + adv k ∧ buff'.length = buff.length ∧
      (∀ j, P.length + touch k ≤ j → buff'[j]? = buff[j]?) := by
  obtain ⟨tl, rfl, h0, h1⟩ := hI
  simp at h7 h6 h5
  obtain ⟨x, tl', rfl, hx⟩ := h1 (by omega)
  have hx' : bitStream P ++ [x.getLsbD 7] = S ∧ [x.getLsbD 6, x.getLsbD 5, x.getLsbD 4, x.getLsbD 3, x.getLsbD 2, x.getLsbD 1, x.getLsbD 0] = [false, false, false, false, false, false, false] := by
    refine List.append_inj' ?_ (by simp)
    simpa [hk, bits8] using hx
  obtain ⟨hS, hz⟩ := hx'
  simp at hz
  refine ⟨P, P ++ (x ||| ((d &&& 0x1f) <<< 2)) :: tl', ?_, ⟨_, rfl, ?_, ?_⟩, ?_, ?_, ?_⟩
  · simp [hk, decodeStep]
  · intro h; omega
  · intro _
    refine ⟨_, _, rfl, ?_⟩
    have : (k + 1) % 8 = 6 := by omega
    simp [this, ← hS, bits8, bitStream_append, bitStream, hz, h7, h6, h5]
  · simp [hk, adv]
  · simp
  · intro j hj
    simp [hk, touch] at hj
    rw [List.getElem?_append_right (by omega), List.getElem?_append_right (by omega)]
    have : j - P.length = (j - P.length - 1) + 1 := by omega
    rw [this]; simp

theorem step6 (d : BitVec 8) (h7 : d.getLsbD 7 = false) (h6 : d.getLsbD 6 = false) (h5 : d.getLsbD 5 = false)
    (k : Nat) (hk : k % 8 = 6) (P buff : List Byte) (S : List Bool) (hI : Inv k P buff S)
    (hl : P.length + touch k ≤ buff.length) :
    ∃ P' buff', decodeStep d (k % 8) P.length buff = some (P'.length, buff') ∧
      Inv (k + 1) P' buff' (S ++ [d.getLsbD 4, d.getLsbD 3, d.getLsbD 2, d.getLsbD 1, d.getLsbD 0]) ∧
      P'.length = P.length + adv k ∧ buff'.length = buff.length ∧
      (∀ j, P.length + touch k ≤ j → buff'[j]? = buff[j]?) := by
  obtain ⟨tl, rfl, h0, h1⟩ := hI
  simp at h7 h6 h5
  obtain ⟨x, tl', rfl, hx⟩ := h1 (by omega)
  have hx' : bitStream P ++ [x.getLsbD 7, x.getLsbD 6, x.getLsbD 5, x.getLsbD 4, x.getLsbD 3, x.getLsbD 2] = S ∧ [x.getLsbD 1, x.getLsbD 0] = [false, false] := by
    refine List.append_inj' ?_ (by simp)
    simpa [hk, bits8] using hx
  obtain ⟨hS, hz⟩ := hx'
  simp at hz
  simp [hk, touch] at hl
  match tl', hl with
  | y :: tl', _ =>
    refine ⟨P ++ [x ||| ((d >>> 3) &&& 0x3)], (P ++ [x ||| ((d >>> 3) &&& 0x3)]) ++ (d <<< 5) :: tl', ?_, ⟨_, rfl, ?_, ?_⟩, ?_, ?_, ?_⟩
    · simp [hk, decodeStep, orNext]
    · intro h; omega
    · intro _
      refine ⟨_, _, rfl, ?_⟩
      have : (k + 1) % 8 = 7 := by omega
      simp [this, ← hS, bits8, bitStream_append, bitStream, hz, h7, h6, h5]
    · simp [hk, adv]
    · simp
    · intro j hj
      simp [hk, touch] at hj
      rw [List.getElem?_append_right (by simp; omega), List.getElem?_append_right (by omega)]
      have : j - P.length = (j - P.length - 2) + 1 + 1 := by omega
      rw [this]; simp
      have : j - (P.length + 1) = (j - P.length - 2) + 1 := by omega
      rw [this]; simp

theorem step7 (d : BitVec 8) (h7 : d.getLsbD 7 = false) (h6 : d.getLsbD 6 = false) (h5 : d.getLsbD 5 = false)
    (k : Nat) (hk : k % 8 = 7) (P buff : List Byte) (S : List Bool) (hI : Inv k P buff S)
    (hl : P.length + touch k ≤ buff.length) :
    ∃ P' buff', decodeStep d (k % 8) P.length buff = some (P'.length, buff') ∧
      Inv (k + 1) P' buff' (S ++ [d.getLsbD 4, d.getLsbD 3, d.getLsbD 2, d.getLsbD 1, d.getLsbD 0]) ∧
      P'.length = P.length + adv k ∧ buff'.length = buff.length ∧
      (∀ j, P.length + touch k ≤ j → buff'[j]? = buff[j]?) := by
  obtain ⟨tl, rfl, h0, h1⟩ := hI
  simp at h7 h6 h5
  obtain ⟨x, tl', rfl, hx⟩ := h1 (by omega)
  have hx' : bitStream P ++ [x.getLsbD 7, x.getLsbD 6, x.getLsbD 5] = S ∧ [x.getLsbD 4, x.getLsbD 3, x.getLsbD 2, x.getLsbD 1, x.getLsbD 0] = [false, false, false, false, false] := by
    refine List.append_inj' ?_ (by simp)
    simpa [hk, bits8] using hx
  obtain ⟨hS, hz⟩ := hx'
  simp at hz
  refine ⟨P ++ [x ||| (d &&& 0x1f)], (P ++ [x ||| (d &&& 0x1f)]) ++ tl', ?_, ⟨_, rfl, ?_, ?_⟩, ?_, ?_, ?_⟩
  · simp [hk, decodeStep]
  · intro h
    simp [← hS, bits8, bitStream_append, bitStream, hz, h7, h6, h5]
  · intro h; omega
  · simp [hk, adv]
  · simp
  · intro j hj
    simp [hk, touch] at hj
    rw [List.getElem?_append_right (by simp; omega), List.getElem?_append_right (by omega)]
    have : j - P.length = (j - P.length - 1) + 1 := by omega
    rw [this]; simp
    congr 1

theorem step_spec (d : BitVec 8) (h7 : d.getLsbD 7 = false) (h6 : d.getLsbD 6 = false) (h5 : d.getLsbD 5 = false)
    (k : Nat) (P buff : List Byte) (S : List Bool) (hI : Inv k P buff S)
    (hl : P.length + touch k ≤ buff.length) :
    ∃ P' buff', decodeStep d (k % 8) P.length buff = some (P'.length, buff') ∧
      Inv (k + 1) P' buff' (S ++ [d.getLsbD 4, d.getLsbD 3, d.getLsbD 2, d.getLsbD 1, d.getLsbD 0]) ∧
      P'.length = P.length + adv k ∧ buff'.length = buff.length ∧
      (∀ j, P.length + touch k ≤ j → buff'[j]? = buff[j]?) := by
  have hk : k % 8 = 0 ∨ k % 8 = 1 ∨ k % 8 = 2 ∨ k % 8 = 3 ∨ k % 8 = 4 ∨ k % 8 = 5 ∨ k % 8 = 6 ∨ k % 8 = 7 := by omega
  rcases hk with hk | hk | hk | hk | hk | hk | hk | hk
  · exact step0 d h7 h6 h5 k hk P buff S hI hl
  · exact step1 d h7 h6 h5 k hk P buff S hI hl
  · exact step2 d h7 h6 h5 k hk P buff S hI hl
  · exact step3 d h7 h6 h5 k hk P buff S hI hl
  · exact step4 d h7 h6 h5 k hk P buff S hI hl
  · exact step5 d h7 h6 h5 k hk P buff S hI hl
  · exact step6 d h7 h6 h5 k hk P buff S hI hl
  · exact step7 d h7 h6 h5 k hk P buff S hI hl

theorem ar1 (k : Nat) : 5 * k / 8 + touch k = (5 * (k + 1) + 7) / 8 := by
  have h : k = 8 * (k / 8) + k % 8 := by omega
  generalize k / 8 = m at h
  have : k % 8 < 8 := by omega
  generalize k % 8 = r at *
  subst h
  match r, this with
  | 0, _ | 1, _ | 2, _ | 3, _ | 4, _ | 5, _ | 6, _ | 7, _ => simp [touch, adv]; omega

theorem ar2 (k : Nat) : 5 * k / 8 + adv k = 5 * (k + 1) / 8 := by
  have h : k = 8 * (k / 8) + k % 8 := by omega
  generalize k / 8 = m at h
  have : k % 8 < 8 := by omega
  generalize k % 8 = r at *
  subst h
  match r, this with
  | 0, _ | 1, _ | 2, _ | 3, _ | 4, _ | 5, _ | 6, _ | 7, _ => simp [touch, adv]; omega

theorem ar3 (k : Nat) : (5 * k + 7) / 8 = 5 * k / 8 + (if k % 8 = 0 then 0 else 1) := by
  have h : k = 8 * (k / 8) + k % 8 := by omega
  generalize k / 8 = m at h
  have : k % 8 < 8 := by omega
  generalize k % 8 = r at *
  subst h
  match r, this with
  | 0, _ | 1, _ | 2, _ | 3, _ | 4, _ | 5, _ | 6, _ | 7, _ => simp [touch, adv]; omega

theorem symbols_cons_ne {c : BitVec 8} (h : c ≠ pad) (text : List (BitVec 8)) :
    symbols (c :: text) = c :: symbols text := by
  simp [symbols, h]

theorem loop_ok (text : List Byte) : ∀ (k : Nat) (P buff : List Byte) (S : List Bool), Inv k P buff S →
    P.length = 5 * k / 8 → (5 * (k + (symbols text).length) + 7) / 8 ≤ buff.length →
    (∀ c ∈ symbols text, c ∈ alphabet) →
    ∃ P' buff', decodeLoop text k P.length buff = .ok buff' ∧
      Inv (k + (symbols text).length) P' buff' (S ++ symStream (symbols text)) ∧
      P'.length = 5 * (k + (symbols text).length) / 8 ∧ buff'.length = buff.length ∧
      (∀ j, (5 * (k + (symbols text).length) + 7) / 8 ≤ j → buff'[j]? = buff[j]?) := by
  induction text with
  | nil =>
    intro k P buff S hI hP hc _
    exact ⟨P, buff, rfl, by simpa [symbols, symStream] using hI, by simpa [symbols] using hP, rfl, fun _ _ => rfl⟩
  | cons c text ih =>
    intro k P buff S hI hP hc hv
    by_cases hp : c = pad
    · have hs : symbols (c :: text) = [] := by simp [symbols, hp]
      refine ⟨P, buff, ?_, by simpa [hs, symStream] using hI, by simpa [hs] using hP, rfl, fun _ _ => rfl⟩
      have h1 : decodeTable c = 0xff := (decodeTable_invalid c).2 (hp ▸ pad_not_mem)
      have h2 : c = 61 := hp.trans pad_eq
      simp [decodeLoop, h1, h2]
      simp [h2] at h1; simp [h1]
    · rw [symbols_cons_ne hp] at hc hv ⊢
      have hcv : decodeTable c ≠ 0xff := fun h => (decodeTable_invalid c).1 h (hv c (by simp))
      obtain ⟨_, _, h7, h6, h5, hb⟩ := decodeTable_valid c hcv
      simp at hc
      obtain ⟨P', buff', hd, hI', hP', hlen, hun⟩ := step_spec (decodeTable c) h7 h6 h5 k P buff S hI (by
        rw [hP, ar1]; omega)
      have hPk : P'.length = 5 * (k + 1) / 8 := by
        rw [hP', hP, ar2]
      rw [← hb] at hI'
      obtain ⟨P'', buff'', hd', hI'', hP'', hlen', hun'⟩ := ih (k + 1) P' buff' _ hI' hPk (by rw [hlen]; omega)
        (fun x hx => hv x (by simp [hx]))
      refine ⟨P'', buff'', ?_, ?_, ?_, by omega, ?_⟩
      · simp only [decodeLoop, if_neg hcv, hd, hd']
      · have : k + (c :: symbols text).length = k + 1 + (symbols text).length := by simp; omega
        rw [this]
        simpa [symStream] using hI''
      · rw [hP'']; simp; omega
      · intro j hj
        simp at hj
        rw [hun' j (by omega), hun j (by rw [hP, ar1]; omega)]

theorem loop_einval (text : List Byte) : ∀ (k : Nat) (P buff : List Byte) (S : List Bool), Inv k P buff S →
    P.length = 5 * k / 8 → (5 * (k + (symbols text).length) + 7) / 8 ≤ buff.length →
    ¬ (∀ c ∈ symbols text, c ∈ alphabet) →
    ∃ buff', decodeLoop text k P.length buff = .einval buff' ∧ buff'.length = buff.length ∧
      (∀ j, (5 * (k + (symbols text).length) + 7) / 8 ≤ j → buff'[j]? = buff[j]?) := by
  induction text with
  | nil =>
    intro k P buff S hI hP hc h
    simp [symbols] at h
  | cons c text ih =>
    intro k P buff S hI hP hc hv
    by_cases hp : c = pad
    · have hs : symbols (c :: text) = [] := by simp [symbols, hp]
      simp [hs] at hv
    · rw [symbols_cons_ne hp] at hc hv ⊢
      by_cases hca : c ∈ alphabet
      · have hcv : decodeTable c ≠ 0xff := fun h => (decodeTable_invalid c).1 h hca
        obtain ⟨_, _, h7, h6, h5, hb⟩ := decodeTable_valid c hcv
        simp at hc
        obtain ⟨P', buff', hd, hI', hP', hlen, hun⟩ := step_spec (decodeTable c) h7 h6 h5 k P buff S hI (by
          rw [hP, ar1]; omega)
        have hPk : P'.length = 5 * (k + 1) / 8 := by
          rw [hP', hP, ar2]
        obtain ⟨buff'', hd', hlen', hun'⟩ := ih (k + 1) P' buff' _ hI' hPk (by rw [hlen]; omega)
          (fun h => hv (by
            intro x hx
            rcases List.mem_cons.1 hx with rfl | hx
            · exact hca
            · exact h x hx))
        refine ⟨buff'', ?_, by omega, ?_⟩
        · simp only [decodeLoop, if_neg hcv, hd, hd']
        · intro j hj
          simp at hj
          rw [hun' j (by omega), hun j (by rw [hP, ar1]; omega)]
      · refine ⟨buff, ?_, rfl, fun _ _ => rfl⟩
        have h1 : decodeTable c = 255#8 := (decodeTable_invalid c).2 hca
        have h2 : c ≠ 61#8 := fun h => hp (h.trans pad_eq.symm)
        simp [decodeLoop, h1, h2]

theorem inv_init (buff : List Byte) : Inv 0 [] buff [] := by
  refine ⟨buff, rfl, fun _ => rfl, fun h => absurd rfl h⟩

theorem bits8_length (b : Byte) : (bits8 b).length = 8 := rfl

theorem bitStream_length (l : List Byte) : (bitStream l).length = 8 * l.length := by
  induction l with
  | nil => rfl
  | cons a l ih => simp [bitStream] at ih ⊢; rw [bits8_length]; omega

theorem bits8_inj {a b : BitVec 8} (h : bits8 a = bits8 b) : a = b := by
  have : ∀ i, i < 8 → a.getLsbD i = b.getLsbD i := by
    simp only [bits8, List.cons.injEq] at h
    intro i hi
    match i, hi with
    | 0, _ | 1, _ | 2, _ | 3, _ | 4, _ | 5, _ | 6, _ | 7, _ => simp_all
  exact BitVec.eq_of_getLsbD_eq this

theorem bitStream_inj {a b : List Byte} (h : bitStream a = bitStream b) : a = b := by
  induction a generalizing b with
  | nil =>
    cases b with
    | nil => rfl
    | cons y b => simp [bitStream, bits8] at h
  | cons x a ih =>
    cases b with
    | nil => simp [bitStream, bits8] at h
    | cons y b =>
      simp only [bitStream, List.flatMap_cons] at h
      have := List.append_inj h rfl
      rw [bits8_inj this.1, ih this.2]

theorem inv_stream {k : Nat} {P buff : List Byte} {S : List Bool} (hI : Inv k P buff S)
    (hP : P.length = 5 * k / 8) (hS : S.length = 5 * k) :
    bitStream (buff.take ((5 * k + 7) / 8)) = S ++ List.replicate (8 * ((5 * k + 7) / 8) - 5 * k) false := by
  obtain ⟨tl, rfl, h0, h1⟩ := hI
  by_cases hk : k % 8 = 0
  · have : (5 * k + 7) / 8 = P.length := by omega
    rw [this]
    have : 8 * P.length - 5 * k = 0 := by omega
    simp [this, h0 hk]
  · obtain ⟨x, tl', rfl, hx⟩ := h1 hk
    have : (5 * k + 7) / 8 = P.length + 1 := by rw [ar3, hP, if_neg hk]
    have h8 : 8 * (P.length + 1) - 5 * k = 8 - 5 * (k % 8) % 8 := by omega
    rw [this, List.take_append]
    simp [bitStream_append, h8, ← hx]
    rw [List.take_of_length_le (by omega)]
    have := hx
    simp [bitStream] at this ⊢
    exact this

theorem symStream_length (s : List Byte) : (symStream s).length = 5 * s.length := by
  induction s with
  | nil => rfl
  | cons a l ih => simp [symStream, bits5] at ih ⊢; omega

end Bfdev.Base32

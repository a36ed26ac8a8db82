import Verif.Base64.Model
import Verif.Base64.Spec
set_option linter.unusedSimpArgs false
namespace Bfdev.Base64
open Spec

theorem alphabet_eq : alphabet = encodeTable := by decide +kernel

theorem pad_eq : pad = 61 := by decide

theorem toNat_of_high (x : BitVec 8) : x.getLsbD 7 = false → x.getLsbD 6 = false →
    x.toNat = ofBits [x.getLsbD 5, x.getLsbD 4, x.getLsbD 3, x.getLsbD 2, x.getLsbD 1, x.getLsbD 0] := by
  revert x; decide +kernel

theorem ofBits6_lt (a b c d e f : Bool) : ofBits [a,b,c,d,e,f] < 64 := by
  revert a b c d e f; decide

theorem enc_eq (x : BitVec 8) (h7 : x.getLsbD 7 = false) (h6 : x.getLsbD 6 = false) :
    enc x = some (alphabet.getD (ofBits [x.getLsbD 5, x.getLsbD 4, x.getLsbD 3, x.getLsbD 2, x.getLsbD 1, x.getLsbD 0]) 0) := by
  have h := toNat_of_high x h7 h6
  have hl := ofBits6_lt (x.getLsbD 5) (x.getLsbD 4) (x.getLsbD 3) (x.getLsbD 2) (x.getLsbD 1) (x.getLsbD 0)
  unfold enc
  rw [h, alphabet_eq]
  have : encodeTable.length = 64 := by decide
  rw [List.getElem?_eq_getElem (by omega), List.getD_eq_getElem?_getD, List.getElem?_eq_getElem (by omega)]
  rfl

theorem encode_eq_spec (data : List Byte) : encode data = some (Spec.encode data) := by
  fun_induction Base64.encode data with
  | case1 a b c rest ih =>
    rw [enc_eq _ (by simp) (by simp), enc_eq _ (by simp) (by simp), enc_eq _ (by simp) (by simp), enc_eq _ (by simp) (by simp), ih]
    simp [Spec.encode, bitStream, bits8, sextets]
    omega
  | case2 a b =>
    rw [enc_eq _ (by simp) (by simp), enc_eq _ (by simp) (by simp), enc_eq _ (by simp) (by simp)]
    simp [Spec.encode, bitStream, bits8, sextets, pad_eq]
  | case3 a =>
    rw [enc_eq _ (by simp) (by simp), enc_eq _ (by simp) (by simp)]
    simp [Spec.encode, bitStream, bits8, sextets, pad_eq]
  | case4 => simp [Spec.encode, bitStream, sextets]

theorem decodeTable_valid (c : BitVec 8) : decodeTable c ≠ 0xff →
    c ≠ pad ∧ c ∈ alphabet ∧ (decodeTable c).getLsbD 7 = false ∧ (decodeTable c).getLsbD 6 = false ∧
    bits6 (symValue c) = [(decodeTable c).getLsbD 5, (decodeTable c).getLsbD 4, (decodeTable c).getLsbD 3,
      (decodeTable c).getLsbD 2, (decodeTable c).getLsbD 1, (decodeTable c).getLsbD 0] := by
  revert c; decide +kernel

theorem decodeTable_invalid (c : BitVec 8) : decodeTable c = 0xff ↔ c ∉ alphabet := by
  revert c; decide +kernel

theorem pad_not_mem : pad ∉ alphabet := by decide +kernel

/-- Decoder invariant: `S` is the bit stream of the symbols consumed so far, `k` their number (mod 4 is
`bstate`), `P` the completed output bytes. -/
def Inv (k : Nat) (P buff : List Byte) (S : List Bool) : Prop :=
  ∃ tl, buff = P ++ tl ∧ (k % 4 = 0 → bitStream P = S) ∧
    (k % 4 ≠ 0 → ∃ x tl', tl = x :: tl' ∧ bitStream P ++ bits8 x = S ++ List.replicate (2 * (k % 4)) false)

theorem set_append_len {α} (P : List α) (x y : α) (tl : List α) : (P ++ x :: tl).set P.length y = P ++ y :: tl := by
  simp

theorem bitStream_append (P Q : List Byte) : bitStream (P ++ Q) = bitStream P ++ bitStream Q := by
  simp [bitStream]

theorem step_spec (d : BitVec 8) (h7 : d.getLsbD 7 = false) (h6 : d.getLsbD 6 = false)
    (k : Nat) (P buff : List Byte) (S : List Bool) (hI : Inv k P buff S)
    (hl : P.length + (if k % 4 = 0 ∨ k % 4 = 3 then 1 else 2) ≤ buff.length) :
    ∃ P' buff', decodeStep d (k % 4) P.length buff = some (P'.length, buff') ∧
      Inv (k + 1) P' buff' (S ++ [d.getLsbD 5, d.getLsbD 4, d.getLsbD 3, d.getLsbD 2, d.getLsbD 1, d.getLsbD 0]) ∧
      P'.length = P.length + (if k % 4 = 0 then 0 else 1) ∧ buff'.length = buff.length ∧
      (∀ j, P.length + (if k % 4 = 0 ∨ k % 4 = 3 then 1 else 2) ≤ j → buff'[j]? = buff[j]?) := by
  obtain ⟨tl, rfl, h0, h1⟩ := hI
  simp at h7 h6
  have hk : k % 4 = 0 ∨ k % 4 = 1 ∨ k % 4 = 2 ∨ k % 4 = 3 := by omega
  rcases hk with hk | hk | hk | hk
  · -- state 0
    have hS := h0 hk
    simp [hk] at hl
    match tl, hl with
    | x :: tl', _ =>
      refine ⟨P, P ++ (d <<< 2) :: tl', ?_, ⟨_, rfl, ?_, ?_⟩, ?_, ?_, ?_⟩
      · simp [hk, decodeStep]
      · intro h; omega
      · intro _
        refine ⟨_, _, rfl, ?_⟩
        have : (k + 1) % 4 = 1 := by omega
        simp [this, hS, bits8]
      · simp [hk]
      · simp
      · intro j hj
        simp [hk] at hj
        rw [List.getElem?_append_right (by omega), List.getElem?_append_right (by omega)]
        have : j - P.length = (j - P.length - 1) + 1 := by omega
        rw [this]; simp
  · obtain ⟨x, tl', rfl, hx⟩ := h1 (by omega)
    simp [hk] at hl
    match tl', hl with
    | y :: tl', _ =>
      have hx' : bitStream P ++ [x.getLsbD 7, x.getLsbD 6, x.getLsbD 5, x.getLsbD 4, x.getLsbD 3, x.getLsbD 2] = S ∧
          [x.getLsbD 1, x.getLsbD 0] = [false, false] := by
        refine List.append_inj' ?_ (by simp)
        simpa [hk, bits8] using hx
      obtain ⟨hS, hz⟩ := hx'
      simp at hz
      refine ⟨P ++ [x ||| ((d >>> 4) &&& 0x3)], (P ++ [x ||| ((d >>> 4) &&& 0x3)]) ++ (d <<< 4) :: tl', ?_, ⟨_, rfl, ?_, ?_⟩, ?_, ?_, ?_⟩
      · simp [hk, decodeStep]
      · intro h; omega
      · intro _
        refine ⟨_, _, rfl, ?_⟩
        have : (k + 1) % 4 = 2 := by omega
        simp [this, ← hS, bits8, bitStream_append, bitStream, hz, h7, h6]
      · simp [hk]
      · simp
      · intro j hj
        simp [hk] at hj
        rw [List.getElem?_append_right (by simp; omega), List.getElem?_append_right (by omega)]
        have : j - P.length = (j - P.length - 2) + 1 + 1 := by omega
        rw [this]; simp
        have : j - (P.length + 1) = (j - P.length - 2) + 1 := by omega
        rw [this]; simp
  · obtain ⟨x, tl', rfl, hx⟩ := h1 (by omega)
    simp [hk] at hl
    match tl', hl with
    | y :: tl', _ =>
      have hx' : bitStream P ++ [x.getLsbD 7, x.getLsbD 6, x.getLsbD 5, x.getLsbD 4] = S ∧
          [x.getLsbD 3, x.getLsbD 2, x.getLsbD 1, x.getLsbD 0] = [false, false, false, false] := by
        refine List.append_inj' ?_ (by simp)
        simpa [hk, bits8] using hx
      obtain ⟨hS, hz⟩ := hx'
      simp at hz
      refine ⟨P ++ [x ||| ((d >>> 2) &&& 0xf)], (P ++ [x ||| ((d >>> 2) &&& 0xf)]) ++ (d <<< 6) :: tl', ?_, ⟨_, rfl, ?_, ?_⟩, ?_, ?_, ?_⟩
      · simp [hk, decodeStep]
      · intro h; omega
      · intro _
        refine ⟨_, _, rfl, ?_⟩
        have : (k + 1) % 4 = 3 := by omega
        simp [this, ← hS, bits8, bitStream_append, bitStream, hz, h7, h6]
      · simp [hk]
      · simp
      · intro j hj
        simp [hk] at hj
        rw [List.getElem?_append_right (by simp; omega), List.getElem?_append_right (by omega)]
        have : j - P.length = (j - P.length - 2) + 1 + 1 := by omega
        rw [this]; simp
        have : j - (P.length + 1) = (j - P.length - 2) + 1 := by omega
        rw [this]; simp
  · obtain ⟨x, tl', rfl, hx⟩ := h1 (by omega)
    have hx' : bitStream P ++ [x.getLsbD 7, x.getLsbD 6] = S ∧
        [x.getLsbD 5, x.getLsbD 4, x.getLsbD 3, x.getLsbD 2, x.getLsbD 1, x.getLsbD 0] = [false, false, false, false, false, false] := by
      refine List.append_inj' ?_ (by simp)
      simpa [hk, bits8] using hx
    obtain ⟨hS, hz⟩ := hx'
    simp at hz
    refine ⟨P ++ [x ||| d], (P ++ [x ||| d]) ++ tl', ?_, ⟨_, rfl, ?_, ?_⟩, ?_, ?_, ?_⟩
    · simp [hk, decodeStep]
    · intro h
      simp [← hS, bits8, bitStream_append, bitStream, hz, h7, h6]
    · intro h; omega
    · simp [hk]
    · simp
    · intro j hj
      simp [hk] at hj
      rw [List.getElem?_append_right (by simp; omega), List.getElem?_append_right (by omega)]
      have : j - P.length = (j - P.length - 1) + 1 := by omega
      rw [this]; simp
      congr 1

theorem ar1 (k : Nat) : 6 * k / 8 + (if k % 4 = 0 ∨ k % 4 = 3 then 1 else 2) = (6 * (k + 1) + 7) / 8 := by
  have h : k = 4 * (k / 4) + k % 4 := by omega
  generalize k / 4 = m at h
  have : k % 4 < 4 := by omega
  generalize k % 4 = r at *
  subst h
  match r, this with
  | 0, _ | 1, _ | 2, _ | 3, _ => simp; omega

theorem ar2 (k : Nat) : 6 * k / 8 + (if k % 4 = 0 then 0 else 1) = 6 * (k + 1) / 8 := by
  have h : k = 4 * (k / 4) + k % 4 := by omega
  generalize k / 4 = m at h
  have : k % 4 < 4 := by omega
  generalize k % 4 = r at *
  subst h
  match r, this with
  | 0, _ | 1, _ | 2, _ | 3, _ => simp; omega

theorem ar3 (k : Nat) : (6 * k + 7) / 8 = 6 * k / 8 + (if k % 4 = 0 then 0 else 1) := by
  have h : k = 4 * (k / 4) + k % 4 := by omega
  generalize k / 4 = m at h
  have : k % 4 < 4 := by omega
  generalize k % 4 = r at *
  subst h
  match r, this with
  | 0, _ | 1, _ | 2, _ | 3, _ => simp; omega

theorem symbols_cons_ne {c : BitVec 8} (h : c ≠ pad) (text : List (BitVec 8)) :
    symbols (c :: text) = c :: symbols text := by
  simp [symbols, h]

theorem loop_ok (text : List Byte) : ∀ (k : Nat) (P buff : List Byte) (S : List Bool), Inv k P buff S →
    P.length = 6 * k / 8 → (6 * (k + (symbols text).length) + 7) / 8 ≤ buff.length →
    (∀ c ∈ symbols text, c ∈ alphabet) →
    ∃ P' buff', decodeLoop text k P.length buff = .ok buff' ∧
      Inv (k + (symbols text).length) P' buff' (S ++ symStream (symbols text)) ∧
      P'.length = 6 * (k + (symbols text).length) / 8 ∧ buff'.length = buff.length ∧
      (∀ j, (6 * (k + (symbols text).length) + 7) / 8 ≤ j → buff'[j]? = buff[j]?) := by
  induction text with
  | nil =>
    intro k P buff S hI hP hc _
    exact ⟨P, buff, rfl, by simpa [symbols, symStream] using hI, by simpa [symbols] using hP, rfl, fun _ _ => rfl⟩
  | cons c text ih =>
    intro k P buff S hI hP hc hv
    by_cases hp : c = pad
    · have hs : symbols (c :: text) = [] := by simp [symbols, hp]
      refine ⟨P, buff, ?_, by simpa [hs, symStream] using hI, by simpa [hs] using hP, rfl, fun _ _ => rfl⟩
      have h1 : decodeTable c = 0xff := (decodeTable_invalid c).2 (hp ▸ pad_not_mem)
      have h2 : c = 61 := hp.trans pad_eq
      simp [decodeLoop, h1, h2]
      simp [h2] at h1; simp [h1]
    · rw [symbols_cons_ne hp] at hc hv ⊢
      have hcv : decodeTable c ≠ 0xff := fun h => (decodeTable_invalid c).1 h (hv c (by simp))
      obtain ⟨_, _, h7, h6, hb⟩ := decodeTable_valid c hcv
      simp at hc
      obtain ⟨P', buff', hd, hI', hP', hlen, hun⟩ := step_spec (decodeTable c) h7 h6 k P buff S hI (by
        rw [hP, ar1]; omega)
      have hPk : P'.length = 6 * (k + 1) / 8 := by
        rw [hP', hP, ar2]
      rw [← hb] at hI'
      obtain ⟨P'', buff'', hd', hI'', hP'', hlen', hun'⟩ := ih (k + 1) P' buff' _ hI' hPk (by rw [hlen]; omega)
        (fun x hx => hv x (by simp [hx]))
      refine ⟨P'', buff'', ?_, ?_, ?_, by omega, ?_⟩
      · simp only [decodeLoop, if_neg hcv, hd, hd']
      · have : k + (c :: symbols text).length = k + 1 + (symbols text).length := by simp; omega
        rw [this]
        simpa [symStream] using hI''
      · rw [hP'']; simp; omega
      · intro j hj
        simp at hj
        rw [hun' j (by omega), hun j (by rw [hP, ar1]; omega)]

theorem loop_einval (text : List Byte) : ∀ (k : Nat) (P buff : List Byte) (S : List Bool), Inv k P buff S →
    P.length = 6 * k / 8 → (6 * (k + (symbols text).length) + 7) / 8 ≤ buff.length →
    ¬ (∀ c ∈ symbols text, c ∈ alphabet) →
    ∃ buff', decodeLoop text k P.length buff = .einval buff' ∧ buff'.length = buff.length ∧
      (∀ j, (6 * (k + (symbols text).length) + 7) / 8 ≤ j → buff'[j]? = buff[j]?) := by
  induction text with
  | nil =>
    intro k P buff S hI hP hc h
    simp [symbols] at h
  | cons c text ih =>
    intro k P buff S hI hP hc hv
    by_cases hp : c = pad
    · have hs : symbols (c :: text) = [] := by simp [symbols, hp]
      simp [hs] at hv
    · rw [symbols_cons_ne hp] at hc hv ⊢
      by_cases hca : c ∈ alphabet
      · have hcv : decodeTable c ≠ 0xff := fun h => (decodeTable_invalid c).1 h hca
        obtain ⟨_, _, h7, h6, hb⟩ := decodeTable_valid c hcv
        simp at hc
        obtain ⟨P', buff', hd, hI', hP', hlen, hun⟩ := step_spec (decodeTable c) h7 h6 k P buff S hI (by
          rw [hP, ar1]; omega)
        have hPk : P'.length = 6 * (k + 1) / 8 := by
          rw [hP', hP, ar2]
        obtain ⟨buff'', hd', hlen', hun'⟩ := ih (k + 1) P' buff' _ hI' hPk (by rw [hlen]; omega)
          (fun h => hv (by
            intro x hx
            rcases List.mem_cons.1 hx with rfl | hx
            · exact hca
            · exact h x hx))
        refine ⟨buff'', ?_, by omega, ?_⟩
        · simp only [decodeLoop, if_neg hcv, hd, hd']
        · intro j hj
          simp at hj
          rw [hun' j (by omega), hun j (by rw [hP, ar1]; omega)]
      · refine ⟨buff, ?_, rfl, fun _ _ => rfl⟩
        have h1 : decodeTable c = 255#8 := (decodeTable_invalid c).2 hca
        have h2 : c ≠ 61#8 := fun h => hp (h.trans pad_eq.symm)
        simp [decodeLoop, h1, h2]

theorem inv_init (buff : List Byte) : Inv 0 [] buff [] := by
  refine ⟨buff, rfl, fun _ => rfl, fun h => absurd rfl h⟩

theorem bits8_length (b : Byte) : (bits8 b).length = 8 := rfl

theorem bitStream_length (l : List Byte) : (bitStream l).length = 8 * l.length := by
  induction l with
  | nil => rfl
  | cons a l ih => simp [bitStream] at ih ⊢; rw [bits8_length]; omega

theorem bits8_inj {a b : BitVec 8} (h : bits8 a = bits8 b) : a = b := by
  have : ∀ i, i < 8 → a.getLsbD i = b.getLsbD i := by
    simp only [bits8, List.cons.injEq] at h
    intro i hi
    match i, hi with
    | 0, _ | 1, _ | 2, _ | 3, _ | 4, _ | 5, _ | 6, _ | 7, _ => simp_all
  exact BitVec.eq_of_getLsbD_eq this

theorem bitStream_inj {a b : List Byte} (h : bitStream a = bitStream b) : a = b := by
  induction a generalizing b with
  | nil =>
    cases b with
    | nil => rfl
    | cons y b => simp [bitStream, bits8] at h
  | cons x a ih =>
    cases b with
    | nil => simp [bitStream, bits8] at h
    | cons y b =>
      simp only [bitStream, List.flatMap_cons] at h
      have := List.append_inj h rfl
      rw [bits8_inj this.1, ih this.2]

theorem inv_stream {k : Nat} {P buff : List Byte} {S : List Bool} (hI : Inv k P buff S)
    (hP : P.length = 6 * k / 8) (hS : S.length = 6 * k) :
    bitStream (buff.take ((6 * k + 7) / 8)) = S ++ List.replicate (8 * ((6 * k + 7) / 8) - 6 * k) false := by
  obtain ⟨tl, rfl, h0, h1⟩ := hI
  by_cases hk : k % 4 = 0
  · have : (6 * k + 7) / 8 = P.length := by omega
    rw [this]
    have : 8 * P.length - 6 * k = 0 := by omega
    simp [this, h0 hk]
  · obtain ⟨x, tl', rfl, hx⟩ := h1 hk
    have : (6 * k + 7) / 8 = P.length + 1 := by rw [ar3, hP, if_neg hk]
    have h8 : 8 * (P.length + 1) - 6 * k = 2 * (k % 4) := by omega
    rw [this, List.take_append]
    simp [bitStream_append, h8, ← hx]
    rw [List.take_of_length_le (by omega)]
    simp [bitStream]

theorem symStream_length (s : List Byte) : (symStream s).length = 6 * s.length := by
  induction s with
  | nil => rfl
  | cons a l ih => simp [symStream, bits6] at ih ⊢; omega

end Bfdev.Base64

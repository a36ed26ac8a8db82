import Verif.Ascii85.Model
set_option linter.unusedSimpArgs false
/-
Property C03: Ascii85 round trip.
-/
namespace Bfdev.Ascii85

/-- Specification: the input extended with zero bytes to a multiple of four. -/
def padded (data : List (BitVec 8)) : List (BitVec 8) :=
  data ++ List.replicate ((4 - data.length % 4) % 4) 0

/-- Specification: no aligned group of four bytes of the padded input is all zero. -/
def NoZeroGroup : List (BitVec 8) → Prop
  | a :: b :: c :: d :: rest => ¬ (a = 0 ∧ b = 0 ∧ c = 0 ∧ d = 0) ∧ NoZeroGroup rest
  | _ => True

theorem ofNat_toNat_small (n : Nat) (h : n < 256) : (BitVec.ofNat 8 n).toNat = n := by
  simp; omega

theorem group_value (v : Nat) (hv : v < 2 ^ 32) (h0 : v ≠ 0) :
    ∃ a b c d e, encodeGroup v = [a, b, c, d, e] ∧ a ≠ 122 ∧
      badChar a = false ∧ badChar b = false ∧ badChar c = false ∧ badChar d = false ∧ badChar e = false ∧
      groupValue a b c d e = v := by
  refine ⟨_, _, _, _, _, by rw [encodeGroup, if_neg h0], ?_, ?_, ?_, ?_, ?_, ?_, ?_⟩
  · intro h
    have := congrArg BitVec.toNat h
    rw [ofNat_toNat_small _ (by omega)] at this
    simp at this; omega
  all_goals simp only [badChar, groupValue, ofNat_toNat_small _ (show 33 + v / 85 / 85 / 85 / 85 % 85 < 256 by omega),
      ofNat_toNat_small _ (show 33 + v / 85 / 85 / 85 % 85 < 256 by omega),
      ofNat_toNat_small _ (show 33 + v / 85 / 85 % 85 < 256 by omega),
      ofNat_toNat_small _ (show 33 + v / 85 % 85 < 256 by omega),
      ofNat_toNat_small _ (show 33 + v % 85 < 256 by omega)]
  · simp; omega
  · simp; omega
  · simp; omega
  · simp; omega
  · simp; omega
  · have h1 : v / 85 / 85 / 85 / 85 < 85 := by omega
    rw [Nat.mod_eq_of_lt h1]
    omega

theorem be32Bytes_get (a b c d : BitVec 8) :
    be32Bytes (((a.toNat * 256 + b.toNat) * 256 + c.toNat) * 256 + d.toNat) = [a, b, c, d] := by
  have ha := a.isLt; have hb := b.isLt; have hc := c.isLt; have hd := d.isLt
  simp only [be32Bytes, List.cons.injEq, and_true]
  refine ⟨?_, ?_, ?_, ?_⟩ <;> apply BitVec.eq_of_toNat_eq <;> rw [BitVec.toNat_ofNat] <;> omega

theorem groups_ne {a b c d : BitVec 8} (h : ¬ (a = 0 ∧ b = 0 ∧ c = 0 ∧ d = 0)) :
    ((a.toNat * 256 + b.toNat) * 256 + c.toNat) * 256 + d.toNat ≠ 0 := by
  intro h0
  apply h
  refine ⟨?_, ?_, ?_, ?_⟩ <;> apply BitVec.eq_of_toNat_eq <;> simp <;> omega

/-- Decoding the text of the groups of `p` (length a multiple of four, no zero group). -/
theorem decode_groups (p : List (BitVec 8)) : ∀ (index : Nat) (buff : List Byte),
    p.length % 4 = 0 → NoZeroGroup p → index + p.length ≤ buff.length →
    ∃ text, encode p p.length = some text ∧ text.length = p.length / 4 * 5 ∧
      decodeLoop text index buff = .ok (buff.take index ++ p ++ buff.drop (index + p.length)) (index + p.length) := by
  fun_induction NoZeroGroup p with
  | case1 a b c d rest ih =>
    intro index buff hl ⟨hnz, hz⟩ hb
    simp at hl hb
    have hst : (buff.take index ++ [a, b, c, d] ++ buff.drop (index + 4)).length = buff.length := by
      simp; omega
    obtain ⟨text, he, hlen, hd⟩ := ih (index + 4) (buff.take index ++ [a, b, c, d] ++ buff.drop (index + 4))
      (by omega) hz (by rw [hst]; omega)
    have ha := a.isLt; have hb' := b.isLt; have hc := c.isLt; have hd' := d.isLt
    obtain ⟨x, y, z, u, w, hg, hx, b1, b2, b3, b4, b5, hv⟩ :=
      group_value _ (by omega : ((a.toNat * 256 + b.toNat) * 256 + c.toNat) * 256 + d.toNat < 2 ^ 32) (groups_ne hnz)
    refine ⟨[x, y, z, u, w] ++ text, ?_, ?_, ?_⟩
    · unfold encode
      simp [getBe32, he, hg]
    · simp [hlen]; omega
    · unfold decodeLoop
      have hsk : skipZ ([x, y, z, u, w] ++ text) index buff = some (x :: y :: z :: u :: w :: text, buff) := by
        have hx' : ¬ x = 122#8 := hx
        simp [skipZ, hx']
      rw [if_neg (by simp)]
      split
      · rename_i h; rw [hsk] at h; simp at h
      · rename_i a' b' c' d' e' rest' buff1 h
        rw [hsk] at h
        simp at h
        obtain ⟨⟨rfl, rfl, rfl, rfl, rfl, rfl⟩, rfl⟩ := h
        simp only [b1, b2, b3, b4, b5, Bool.or_self, Bool.false_eq_true, if_false, hv, be32Bytes_get]
        have : store4 buff index [a, b, c, d] = some (buff.take index ++ [a, b, c, d] ++ buff.drop (index + 4)) := by
          simp [store4]; omega
        simp only [this, hd]
        congr 1
        · have h1 : (buff.take index ++ [a, b, c, d] ++ buff.drop (index + 4)).take (index + 4) = buff.take index ++ [a, b, c, d] := by
            rw [List.take_append_of_le_length (by simp; omega), List.take_of_length_le (by simp; omega)]
          have h2 : (buff.take index ++ [a, b, c, d] ++ buff.drop (index + 4)).drop (index + 4 + rest.length)
              = buff.drop (index + (a :: b :: c :: d :: rest).length) := by
            rw [List.drop_append, List.drop_eq_nil_of_le (by simp; omega), List.nil_append, List.drop_drop]
            congr 1
            simp
            omega
          rw [h1, h2]
          simp
        · simp; omega
      · rename_i h1 h2
        rw [hsk] at h2
        simp at h2
        exact absurd h2.1.symm (by intro h; exact h1 _ _ _ _ _ _ h)
  | case2 p h =>
    intro index buff hl _ hb
    have : p = [] := by
      match p, hl, h with
      | [], _, _ => rfl
      | a :: b :: c :: d :: r, _, h => exact absurd rfl (h a b c d r)
    subst this
    refine ⟨[], ?_, rfl, ?_⟩
    · unfold encode; simp
    · unfold decodeLoop; simp

theorem encode_mem (data after : List Byte) (h : (4 - data.length % 4) % 4 ≤ after.length) :
    encode (data ++ after) data.length = encode (padded data) (padded data).length := by
  induction hn : data.length using Nat.strongRecOn generalizing data with
  | _ n ih =>
    by_cases h4 : 4 ≤ n
    · match data, hn with
      | a :: b :: c :: d :: rest, hn =>
        simp at hn
        have hr := ih rest.length (by omega) rest (by simp at h; omega) rfl
        have hp : padded (a :: b :: c :: d :: rest) = a :: b :: c :: d :: padded rest := by
          simp [padded]; omega
        rw [hp]
        subst hn
        unfold encode
        simp [getBe32]
        rw [hr]
      | [], hn => simp at hn; omega
      | [_], hn => simp at hn; omega
      | [_, _], hn => simp at hn; omega
      | [_, _, _], hn => simp at hn; omega
    · subst hn
      match data, h4, h with
      | [], _, _ => unfold encode; simp [padded]
      | [a], _, h =>
        match after, h with
        | x :: y :: z :: r, _ =>
          have hx := x.isLt; have hy := y.isLt; have hz := z.isLt
          unfold encode
          simp [getBe32, padded, maskTail]
          unfold encode
          simp
          exact congrArg encodeGroup (by omega)
        | [], h => simp at h
        | [_], h => simp at h
        | [_, _], h => simp at h
      | [a, b], _, h =>
        match after, h with
        | x :: y :: r, _ =>
          have hx := x.isLt; have hy := y.isLt
          unfold encode
          simp [getBe32, padded, maskTail]
          unfold encode
          simp
          exact congrArg encodeGroup (by omega)
        | [], h => simp at h
        | [_], h => simp at h
      | [a, b, c], _, h =>
        match after, h with
        | x :: r, _ =>
          have hx := x.isLt
          unfold encode
          simp [getBe32, padded, maskTail]
          unfold encode
          simp
          exact congrArg encodeGroup (by omega)
        | [], h => simp at h
      | a :: b :: c :: d :: r, h4, _ => simp at h4

/-- **C03, partial.**  Full property: the statement below without `hz`.  Proved here: for every byte string none of whose (zero
padded) four-byte groups is all zero, provided the up to three bytes of memory after the input are readable,
decoding the encoder's text reports success, announces the padded length, and the buffer
starts with the input followed by the zero padding. -/
theorem ascii85_roundtrip_partial (data after buff : List (BitVec 8))
    (ha : (4 - data.length % 4) % 4 ≤ after.length)
    (hz : NoZeroGroup (padded data))
    (hb : (padded data).length ≤ buff.length) :
    ∃ text buff', encode (data ++ after) data.length = some text ∧ text.length = encodeLength data.length ∧
      decode text buff = .ok buff' (padded data).length ∧
      buff' = padded data ++ buff.drop (padded data).length := by
  obtain ⟨text, he, hl, hd⟩ := decode_groups (padded data) 0 buff (by simp [padded]; omega) hz (by omega)
  refine ⟨text, _, by rw [encode_mem data after ha]; exact he, ?_, by simpa [decode] using hd, by simp⟩
  rw [hl]; simp [padded, encodeLength]; omega

/-- The full round-trip property (as in `ascii85_roundtrip_partial` without the restriction on zero groups). -/
def RoundTrip : Prop :=
  ∀ data after buff : List (BitVec 8), (4 - data.length % 4) % 4 ≤ after.length → (padded data).length ≤ buff.length →
    ∃ text buff', encode (data ++ after) data.length = some text ∧
      decode text buff = .ok buff' (padded data).length ∧
      buff' = padded data ++ buff.drop (padded data).length

/-- **C03 is violated by the code**: four zero bytes encode to `z`, which the decoder rejects (it
requires a further group after the shorthand). -/
theorem ascii85_roundtrip_violated : ¬ RoundTrip := by
  intro h
  obtain ⟨text, buff', he, hd, -⟩ := h [0, 0, 0, 0] [] [0, 0, 0, 0] (by decide) (by decide)
  have ht : text = [122] := by
    unfold encode at he; unfold encode at he
    simpa [getBe32, encodeGroup] using he.symm
  subst ht
  unfold decode decodeLoop at hd
  simp [skipZ, store4] at hd

/-- **C03 is violated by the code, silently**: `00 00 00 00 4d 61 6e 20` encodes to `z9jqo^`, which decodes
"successfully" to the four bytes `4d 61 6e 20`; the zero group is lost. -/
theorem ascii85_zero_group_lost :
    ∃ text, encode [0, 0, 0, 0, 0x4d, 0x61, 0x6e, 0x20] 8 = some text ∧
      decode text (List.replicate 8 0xff) = .ok [0x4d, 0x61, 0x6e, 0x20, 0xff, 0xff, 0xff, 0xff] 4 := by
  refine ⟨[122, 57, 106, 113, 111, 94], ?_, ?_⟩
  · unfold encode; unfold encode; unfold encode; simp [getBe32, encodeGroup]
  · unfold decode decodeLoop; simp [skipZ, store4, badChar, groupValue, be32Bytes]
    unfold decodeLoop; simp

/-- **C03, memory safety of the encoder is violated**: when the input length is not a multiple of four, the
encoder reads beyond the input (any input that ends exactly where readable memory ends). -/
theorem ascii85_encode_overread (data : List (BitVec 8)) (h : data.length % 4 ≠ 0) :
    encode data data.length = none := by
  induction hn : data.length using Nat.strongRecOn generalizing data with
  | _ n ih =>
    match data, hn with
    | a :: b :: c :: d :: rest, hn =>
      simp at hn h
      have := ih rest.length (by omega) rest (by omega) rfl
      subst hn
      unfold encode
      simp [getBe32, this]
    | [], hn => simp at h
    | [_], hn => subst hn; unfold encode; simp [getBe32]
    | [_, _], hn => subst hn; unfold encode; simp [getBe32]
    | [_, _, _], hn => subst hn; unfold encode; simp [getBe32]

-- Non-vacuity of the partial theorem: a 6-byte input with non-zero groups.
example : NoZeroGroup (padded [1#8, 0, 0, 0, 7, 9]) ∧
    (4 - [1#8, 0, 0, 0, 7, 9].length % 4) % 4 ≤ [0xAA#8, 0xBB].length := by
  simp [NoZeroGroup, padded]

/-- C03: whatever is encoded, zero groups included, the text has at most the length the helper announces. -/
theorem encode_fits : ∀ (mem : List Byte) (size : Nat) (text : List Byte), encode mem size = some text → text.length ≤ encodeLength size := by
  intro mem size
  have hg : ∀ v, (encodeGroup v).length ≤ 5 := by intro v; unfold encodeGroup; split <;> simp
  fun_induction encode mem size with
  | case1 mem size h ih =>
    intro text e
    cases hv : getBe32 mem with
    | none => rw [hv] at e; cases e
    | some v =>
      cases hr : encode (mem.drop 4) (size - 4) with
      | none => rw [hv, hr] at e; cases e
      | some r =>
        rw [hv, hr] at e
        cases e
        have := ih r hr
        have := hg v
        rw [List.length_append]
        unfold encodeLength at *
        omega
  | case2 => intro text e; cases e; simp
  | case3 mem size h h0 =>
    intro text e
    cases hv : getBe32 mem with
    | none => rw [hv] at e; cases e
    | some v =>
      rw [hv] at e
      cases e
      have := hg (maskTail v size)
      unfold encodeLength
      omega

theorem store4_some {buff v b : List Byte} {i : Nat} (hv : v.length = 4) (h : store4 buff i v = some b) :
    i + 4 ≤ buff.length ∧ b.length = buff.length ∧ b.drop (i + 4) = buff.drop (i + 4) := by
  unfold store4 at h
  split at h
  · next hle =>
    cases h
    refine ⟨hle, by simp; omega, ?_⟩
    rw [List.append_assoc, List.drop_append, List.drop_of_length_le (by rw [List.length_take]; omega), List.length_take,
      Nat.min_eq_left (by omega), show i + 4 - i = 4 by omega, List.nil_append, List.drop_append, List.drop_of_length_le (by omega), hv]
    simp
  · cases h

/-- C03: with a buffer of the length the helper announces, decoding any text at all — accepted or rejected — stores nothing outside the buffer; an accepted
text gives at most that many bytes and nothing behind the reported length is touched. -/
theorem decode_fits (data buff : List Byte) (h : decodeLength data.length ≤ buff.length) :
    decode data buff ≠ .ub ∧ ∀ b n, decode data buff = .ok b n → n ≤ decodeLength data.length ∧ b.length = buff.length ∧ b.drop n = buff.drop n := by
  have key : ∀ (data : List Byte) (index : Nat) (buff : List Byte), index + decodeLength data.length ≤ buff.length →
      decodeLoop data index buff ≠ .ub ∧ ∀ b n, decodeLoop data index buff = .ok b n →
        n ≤ index + decodeLength data.length ∧ index ≤ n ∧ b.length = buff.length ∧ b.drop n = buff.drop n := by
    intro data
    induction hl : data.length using Nat.strongRecOn generalizing data with
    | _ l ih =>
      intro index buff hb
      subst hl
      unfold decodeLength at hb
      rw [decodeLoop]
      by_cases hd : data = []
      · rw [if_pos hd]
        refine ⟨by simp, fun b n e => ?_⟩
        cases e
        exact ⟨by omega, Nat.le_refl _, rfl, rfl⟩
      · rw [if_neg hd]
        have hpos := List.length_pos_iff.2 hd
        have hroom : index + 4 ≤ buff.length := by omega
        have hz : ∃ d1 b1, skipZ data index buff = some (d1, b1) ∧ d1.length ≤ data.length ∧ b1.length = buff.length ∧ b1.drop (index + 4) = buff.drop (index + 4) := by
          cases data with
          | nil => exact absurd rfl hd
          | cons c t =>
            unfold skipZ
            simp only
            by_cases hc : c = 122
            · rw [if_pos hc]
              have hs : store4 buff index [0, 0, 0, 0] = some (buff.take index ++ [0, 0, 0, 0] ++ buff.drop (index + 4)) := if_pos hroom
              have := store4_some (by rfl) hs
              exact ⟨t, _, by rw [hs]; rfl, by simp, this.2⟩
            · rw [if_neg hc]
              exact ⟨_, _, rfl, Nat.le_refl _, rfl, rfl⟩
        obtain ⟨d1, b1, e1, l1, l2, l3⟩ := hz
        split
        · next h => rw [e1] at h; cases h
        · next a b c d e rest b2 h =>
          rw [e1] at h
          cases h
          split
          · exact ⟨by simp, fun b n e => by cases e⟩
          · have hs : store4 b1 index (be32Bytes (groupValue a b c d e)) = some (b1.take index ++ be32Bytes (groupValue a b c d e) ++ b1.drop (index + 4)) :=
              if_pos (by omega)
            have h4 := store4_some (by rfl) hs
            rw [hs]
            simp only
            have hr : rest.length + 5 ≤ data.length := by simpa using l1
            have r := ih rest.length (by omega) rest rfl (index + 4) _ (by rw [h4.2.1, l2]; unfold decodeLength; omega)
            refine ⟨r.1, fun b' n e' => ?_⟩
            obtain ⟨r1, r2, r3, r4⟩ := r.2 b' n e'
            unfold decodeLength at *
            refine ⟨by omega, by omega, by rw [r3, h4.2.1, l2], ?_⟩
            have hd4 := congrArg (List.drop (n - (index + 4))) (h4.2.2.trans l3)
            rw [List.drop_drop, List.drop_drop, show index + 4 + (n - (index + 4)) = n by omega] at hd4
            rw [r4, hd4]
        · exact ⟨by simp, fun b n e => by cases e⟩
  have := key data 0 buff (by omega)
  exact ⟨this.1, fun b n e => ⟨by have := (this.2 b n e).1; omega, (this.2 b n e).2.2⟩⟩

example : decodeLength 6 = 8 ∧ encodeLength 8 = 10 := by decide

end Bfdev.Ascii85

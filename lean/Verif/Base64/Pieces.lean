import Verif.Base64.Props
import Verif.Base32.Props
/-!
C137: the Base64 and Base32 texts of pieces, put together, are the text of the whole.
-/
namespace Bfdev.Base64

theorem encode_cut : ∀ (a b : List Byte), a.length % 3 = 0 → encode (a ++ b) = (encode a).bind fun u => (encode b).map fun v => u ++ v
  | [], b, _ => by simp [encode]
  | [_], _, h => by simp at h
  | [_, _], _, h => by simp at h
  | x :: y :: z :: a, b, h => by
    have ih := encode_cut a b (by simp only [List.length_cons] at h; omega)
    simp only [List.cons_append, encode, ih, Option.bind_eq_bind]
    cases enc (x >>> 2) <;> cases enc (((x &&& 0x3) <<< 4) ||| (y >>> 4)) <;> cases enc (((y &&& 0xf) <<< 2) ||| (z >>> 6)) <;> cases enc (z &&& 0x3f) <;>
      cases encode a <;> cases encode b <;> rfl

/-- **C137**, Base64: data cut at a multiple of three bytes. -/
theorem base64_pieces (a b : List Byte) (h : a.length % 3 = 0) :
    ∃ s t, encode a = some s ∧ encode b = some t ∧ encode (a ++ b) = some (s ++ t) := by
  refine ⟨_, _, encode_eq_spec a, encode_eq_spec b, ?_⟩
  rw [encode_cut a b h, encode_eq_spec a, encode_eq_spec b]; rfl

/-- **C137**, Base64: only there. -/
theorem base64_pieces_only (a b : List Byte) (hb : b ≠ []) (h : a.length % 3 ≠ 0) {s t : List Byte} (hs : encode a = some s) (ht : encode b = some t) :
    encode (a ++ b) ≠ some (s ++ t) := by
  intro e
  have l1 := specEncode_length a
  have hp : 0 < b.length := List.length_pos_iff.2 hb
  rw [encode_eq_spec] at hs ht e
  cases hs; cases ht
  have e := Option.some.inj e
  -- the text of `a` ends in a padding character, and symbols follow in the text of `b`
  have k1 : (Spec.symbols (Spec.encode (a ++ b))).length = (Spec.symbols (Spec.encode a)).length := by
    have hpad : Spec.symbols (Spec.encode a ++ Spec.encode b) = Spec.symbols (Spec.encode a) := by
      unfold Spec.symbols
      rw [List.takeWhile_append]
      split
      · rename_i hh
        exfalso
        have h1 : (Spec.symbols (Spec.encode a)).length = (Spec.encode a).length := hh
        rw [symbols_encode, List.length_map, sextets_length, bitStream_length, l1, encodeLength] at h1
        omega
      · rfl
    rw [e, hpad]
  rw [symbols_encode, symbols_encode, List.length_map, List.length_map, sextets_length, sextets_length, bitStream_length, bitStream_length, List.length_append] at k1
  omega

/-- Not vacuous: three bytes and two more; two bytes and one more. -/
example : ([0x4d, 0x61, 0x6e] : List Byte).length % 3 = 0 ∧ encode ([0x4d, 0x61, 0x6e] ++ [0x01, 0x02]) = some [0x54, 0x57, 0x46, 0x75, 0x41, 0x51, 0x49, 0x3d] := by decide +kernel
example : ([0x4d, 0x61] : List Byte).length % 3 ≠ 0 ∧ encode [0x4d, 0x61] = some [0x54, 0x57, 0x45, 0x3d] := by decide +kernel

end Bfdev.Base64

namespace Bfdev.Base32

theorem encode_cut : ∀ (a b : List Byte), a.length % 5 = 0 → encode (a ++ b) = (encode a).bind fun u => (encode b).map fun v => u ++ v
  | [], b, _ => by simp [encode]
  | [_], _, h => by simp at h
  | [_, _], _, h => by simp at h
  | [_, _, _], _, h => by simp at h
  | [_, _, _, _], _, h => by simp at h
  | x :: y :: z :: u :: v :: a, b, h => by
    have ih := encode_cut a b (by simp only [List.length_cons] at h; omega)
    simp only [List.cons_append, encode, ih, Option.bind_eq_bind]
    generalize enc (x >>> 3) = e0
    generalize enc (((x &&& 0x7) <<< 2) ||| (y >>> 6)) = e1
    generalize enc ((y >>> 1) &&& 0x1f) = e2
    generalize enc (((y &&& 0x1) <<< 4) ||| (z >>> 4)) = e3
    generalize enc (((z &&& 0xf) <<< 1) ||| (u >>> 7)) = e4
    generalize enc ((u >>> 2) &&& 0x1f) = e5
    generalize enc (((u &&& 0x3) <<< 3) ||| (v >>> 5)) = e6
    generalize enc (v &&& 0x1f) = e7
    cases e0 with | none => rfl | some _ => ?_
    cases e1 with | none => rfl | some _ => ?_
    cases e2 with | none => rfl | some _ => ?_
    cases e3 with | none => rfl | some _ => ?_
    cases e4 with | none => rfl | some _ => ?_
    cases e5 with | none => rfl | some _ => ?_
    cases e6 with | none => rfl | some _ => ?_
    cases e7 with | none => rfl | some _ => ?_
    cases encode a <;> cases encode b <;> rfl

/-- **C137**, Base32: data cut at a multiple of five bytes. -/
theorem base32_pieces (a b : List Byte) (h : a.length % 5 = 0) :
    ∃ s t, encode a = some s ∧ encode b = some t ∧ encode (a ++ b) = some (s ++ t) := by
  refine ⟨_, _, encode_eq_spec a, encode_eq_spec b, ?_⟩
  rw [encode_cut a b h, encode_eq_spec a, encode_eq_spec b]; rfl

/-- **C137**, Base32: only there. -/
theorem base32_pieces_only (a b : List Byte) (hb : b ≠ []) (h : a.length % 5 ≠ 0) {s t : List Byte} (hs : encode a = some s) (ht : encode b = some t) :
    encode (a ++ b) ≠ some (s ++ t) := by
  intro e
  have l1 := specEncode_length a
  have hp : 0 < b.length := List.length_pos_iff.2 hb
  rw [encode_eq_spec] at hs ht e
  cases hs; cases ht
  have e := Option.some.inj e
  have k1 : (Spec.symbols (Spec.encode (a ++ b))).length = (Spec.symbols (Spec.encode a)).length := by
    have hpad : Spec.symbols (Spec.encode a ++ Spec.encode b) = Spec.symbols (Spec.encode a) := by
      unfold Spec.symbols
      rw [List.takeWhile_append]
      split
      · rename_i hh
        exfalso
        have h1 : (Spec.symbols (Spec.encode a)).length = (Spec.encode a).length := hh
        rw [symbols_encode, List.length_map, quintets_length, bitStream_length, l1, encodeLength] at h1
        omega
      · rfl
    rw [e, hpad]
  rw [symbols_encode, symbols_encode, List.length_map, List.length_map, quintets_length, quintets_length, bitStream_length, bitStream_length, List.length_append] at k1
  omega

/-- Not vacuous: five bytes and one more; one byte. -/
example : encode ([0x66, 0x6f, 0x6f, 0x62, 0x61] ++ [0x72]) = some [0x4d, 0x5a, 0x58, 0x57, 0x36, 0x59, 0x54, 0x42, 0x4f, 0x49, 0x3d, 0x3d, 0x3d, 0x3d, 0x3d, 0x3d] := by
  decide +kernel

end Bfdev.Base32

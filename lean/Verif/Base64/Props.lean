import Verif.Base64.Lemmas
/-
Properties C01 and C04 (Base64 part).
-/
namespace Bfdev.Base64
open Spec

theorem bits6_ofBits (a b c d e f : Bool) : bits6 (ofBits [a,b,c,d,e,f]) = [a,b,c,d,e,f] := by
  revert a b c d e f; decide

theorem sextets_stream (bs : List Bool) :
    (sextets bs).flatMap bits6 = bs ++ List.replicate ((6 - bs.length % 6) % 6) false := by
  fun_induction sextets bs with
  | case1 => rfl
  | case2 a b c d e f rest ih =>
    simp [ih, bits6_ofBits]
    omega
  | case3 short h1 h2 =>
    match short, h1, h2 with
    | [a], _, _ => simp [bits6_ofBits]
    | [a, b], _, _ => simp [bits6_ofBits]
    | [a, b, c], _, _ => simp [bits6_ofBits]
    | [a, b, c, d], _, _ => simp [bits6_ofBits]
    | [a, b, c, d, e], _, _ => simp [bits6_ofBits]
    | a :: b :: c :: d :: e :: f :: r, _, h2 => exact absurd rfl (h2 a b c d e f r)

theorem sextets_lt (bs : List Bool) : ∀ n ∈ sextets bs, n < 64 := by
  fun_induction sextets bs with
  | case1 => simp
  | case2 a b c d e f rest ih =>
    intro n hn
    rcases List.mem_cons.1 hn with rfl | hn
    · exact ofBits6_lt ..
    · exact ih n hn
  | case3 short h1 h2 =>
    match short, h1, h2 with
    | [a], _, _ => simp [ofBits6_lt]
    | [a, b], _, _ => simp [ofBits6_lt]
    | [a, b, c], _, _ => simp [ofBits6_lt]
    | [a, b, c, d], _, _ => simp [ofBits6_lt]
    | [a, b, c, d, e], _, _ => simp [ofBits6_lt]
    | a :: b :: c :: d :: e :: f :: r, _, h2 => exact absurd rfl (h2 a b c d e f r)

theorem sextets_length (bs : List Bool) : (sextets bs).length = (bs.length + 5) / 6 := by
  have h := congrArg List.length (sextets_stream bs)
  simp only [List.length_flatMap, List.length_append, List.length_replicate] at h
  have h6 : ∀ l : List Nat, (l.map (fun n => (bits6 n).length)).sum = 6 * l.length := by
    intro l; induction l with
    | nil => rfl
    | cons a l ih => simp [bits6] at ih ⊢; omega
  rw [h6] at h
  omega

theorem symValue_alphabet (n : Nat) (h : n < 64) : symValue (alphabet.getD n 0) = n := by
  have : ∀ n : Fin 64, symValue (alphabet.getD n.val 0) = n.val := by decide +kernel
  exact this ⟨n, h⟩

theorem alphabet_mem (n : Nat) (h : n < 64) : alphabet.getD n 0 ∈ alphabet := by
  have : ∀ n : Fin 64, alphabet.getD n.val 0 ∈ alphabet := by decide +kernel
  exact this ⟨n, h⟩

theorem symbols_encode (data : List Byte) :
    symbols (Spec.encode data) = (sextets (bitStream data)).map (fun n => alphabet.getD n 0) := by
  simp only [symbols, Spec.encode]
  rw [List.takeWhile_append_of_pos]
  · have : List.takeWhile (fun c => c != pad) (List.replicate ((4 - ((sextets (bitStream data)).map (fun n => alphabet.getD n 0)).length % 4) % 4) pad) = [] := by
      rw [List.takeWhile_replicate]; simp
    simp only [this, List.append_nil]
  · intro c hc
    obtain ⟨n, hn, rfl⟩ := List.mem_map.1 hc
    have := alphabet_mem n (sextets_lt _ n hn)
    simp only [bne_iff_ne, ne_eq]
    intro h; rw [h] at this; exact pad_not_mem this

theorem symStream_encode (data : List Byte) : symStream (symbols (Spec.encode data)) =
    bitStream data ++ List.replicate ((6 - (8 * data.length) % 6) % 6) false := by
  rw [symbols_encode, ← bitStream_length data, ← sextets_stream]
  simp only [symStream, List.flatMap_map]
  have : ∀ l : List Nat, (∀ n ∈ l, n < 64) →
      l.flatMap (fun n => bits6 (symValue (alphabet.getD n 0))) = l.flatMap bits6 := by
    intro l hl; induction l with
    | nil => rfl
    | cons a l ih =>
      simp only [List.flatMap_cons, symValue_alphabet a (hl a (by simp)), ih (fun n hn => hl n (by simp [hn]))]
  exact this _ (sextets_lt _)

theorem specEncode_length (data : List Byte) : (Spec.encode data).length = encodeLength data.length := by
  simp only [Spec.encode, encodeLength, List.length_append, List.length_map, List.length_replicate,
    sextets_length, bitStream_length]
  generalize data.length = n
  have h : n = 3 * (n / 3) + n % 3 := by omega
  generalize n / 3 = m at h
  have : n % 3 < 3 := by omega
  generalize n % 3 = r at *
  subst h
  match r, this with
  | 0, _ | 1, _ | 2, _ => omega

/-- **C01 (format).** For every byte string the encoder stays inside its table and writes exactly the
RFC 4648 text, whose length is the announced one. -/
theorem base64_encode_rfc4648 (data : List (BitVec 8)) :
    encode data = some (Spec.encode data) ∧ (Spec.encode data).length = encodeLength data.length :=
  ⟨encode_eq_spec data, specEncode_length data⟩

/-- **C04 (Base64).** For every text and every output buffer with room for the announced length, the
decoder never leaves the buffer; it reports success exactly when all symbols before the first `=` are in
the alphabet, and then the buffer holds, most significant bit first, exactly the bits of the symbols
followed by zero fill, everything else being untouched. -/
theorem base64_decode_spec (text buff : List (BitVec 8)) (hb : decodeLength text.length ≤ buff.length) :
    let k := (symbols text).length
    (if ∀ c ∈ symbols text, c ∈ alphabet then
      ∃ buff', decode text buff = .ok buff' ∧ buff'.length = buff.length ∧
        bitStream (buff'.take ((6 * k + 7) / 8)) =
          symStream (symbols text) ++ List.replicate (8 * ((6 * k + 7) / 8) - 6 * k) false ∧
        buff'.drop ((6 * k + 7) / 8) = buff.drop ((6 * k + 7) / 8)
    else
      ∃ buff', decode text buff = .einval buff' ∧ buff'.length = buff.length ∧
        buff'.drop ((6 * k + 7) / 8) = buff.drop ((6 * k + 7) / 8)) := by
  intro k
  have hk : k ≤ text.length := List.Sublist.length_le (List.takeWhile_sublist _)
  have hcap : (6 * (0 + k) + 7) / 8 ≤ buff.length := by
    simp [decodeLength] at hb
    omega
  have hdrop : ∀ buff' : List Byte, (∀ j, (6 * (0 + k) + 7) / 8 ≤ j → buff'[j]? = buff[j]?) →
      buff'.drop ((6 * k + 7) / 8) = buff.drop ((6 * k + 7) / 8) := by
    intro buff' h
    apply List.ext_getElem?
    intro i
    rw [List.getElem?_drop, List.getElem?_drop]
    apply h; omega
  split
  · rename_i hv
    obtain ⟨P', buff', hd, hI, hP, hl, hu⟩ := loop_ok text 0 [] buff [] (inv_init buff) rfl hcap hv
    refine ⟨buff', hd, hl, ?_, hdrop _ hu⟩
    have := inv_stream hI hP (by simp [symStream_length])
    simpa using this
  · rename_i hv
    obtain ⟨buff', hd, hl, hu⟩ := loop_einval text 0 [] buff [] (inv_init buff) rfl hcap hv
    exact ⟨buff', hd, hl, hdrop _ hu⟩

/-- **C01.** For every byte string and every output buffer of at least the announced length, the encoder
succeeds, its text has the announced length, and decoding that text reports success and
leaves the original byte string at the start of the buffer. -/
theorem base64_roundtrip (data buff : List (BitVec 8))
    (hb : decodeLength (encodeLength data.length) ≤ buff.length) :
    ∃ text buff', encode data = some text ∧ text.length = encodeLength data.length ∧
      decode text buff = .ok buff' ∧ buff'.length = buff.length ∧ buff'.take data.length = data := by
  have hl := specEncode_length data
  have h := base64_decode_spec (Spec.encode data) buff (by rw [hl]; exact hb)
  have hval : ∀ c ∈ symbols (Spec.encode data), c ∈ alphabet := by
    rw [symbols_encode]
    intro c hc
    obtain ⟨n, hn, rfl⟩ := List.mem_map.1 hc
    exact alphabet_mem n (sextets_lt _ n hn)
  simp only [if_pos hval] at h
  obtain ⟨buff', hd, hlen, hs, _⟩ := h
  refine ⟨_, buff', encode_eq_spec data, hl, hd, hlen, ?_⟩
  rw [symStream_encode] at hs
  have hk : 6 * (symbols (Spec.encode data)).length = 8 * data.length + (6 - (8 * data.length) % 6) % 6 := by
    rw [← symStream_length, symStream_encode]; simp [bitStream_length]
  apply bitStream_inj
  have hq : data.length ≤ (6 * (symbols (Spec.encode data)).length + 7) / 8 := by omega
  generalize (6 * (symbols (Spec.encode data)).length + 7) / 8 = q at hs hq
  have h1 : buff'.take q = buff'.take data.length ++ (buff'.take q).drop data.length := by
    have := (List.take_append_drop data.length (buff'.take q)).symm
    rw [List.take_take] at this
    rwa [Nat.min_eq_left hq] at this
  rw [h1, bitStream_append, List.append_assoc] at hs
  refine (List.append_inj hs ?_).1
  rw [bitStream_length, bitStream_length, List.length_take]
  simp [decodeLength, encodeLength] at hb
  omega

-- Non-vacuity: "Hi!?" and a 9-byte buffer.
example : decodeLength (encodeLength [72#8, 105, 33, 63].length) ≤ (List.replicate 6 0xAA#8).length := by decide
example : encode [72#8, 105, 33, 63] = some ("SGkhPw==".toList.map (fun c => BitVec.ofNat 8 c.toNat)) := by decide +kernel
example : decode ("SGkhPw==".toList.map (fun c => BitVec.ofNat 8 c.toNat)) (List.replicate 6 0xAA#8)
    = .ok [72#8, 105, 33, 63, 0, 0xAA] := by decide +kernel
example : decode ("SG*h".toList.map (fun c => BitVec.ofNat 8 c.toNat)) (List.replicate 3 0#8)
    = .einval [72#8, 96, 0] := by decide +kernel

end Bfdev.Base64

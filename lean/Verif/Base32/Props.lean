import Verif.Base32.Lemmas
/-
Properties C02 and C04 (Base32 part).
-/
namespace Bfdev.Base32
open Spec

theorem bits5_ofBits (a b c d e : Bool) : bits5 (ofBits [a,b,c,d,e]) = [a,b,c,d,e] := by
  revert a b c d e; decide

theorem quintets_stream (bs : List Bool) :
    (quintets bs).flatMap bits5 = bs ++ List.replicate ((5 - bs.length % 5) % 5) false := by
  fun_induction quintets bs with
  | case1 => rfl
  | case2 a b c d e rest ih =>
    simp [ih, bits5_ofBits]
    omega
  | case3 short h1 h2 =>
    match short, h1, h2 with
    | [a], _, _ => simp [bits5_ofBits]
    | [a, b], _, _ => simp [bits5_ofBits]
    | [a, b, c], _, _ => simp [bits5_ofBits]
    | [a, b, c, d], _, _ => simp [bits5_ofBits]
    | a :: b :: c :: d :: e :: r, _, h2 => exact absurd rfl (h2 a b c d e r)

theorem quintets_lt (bs : List Bool) : ∀ n ∈ quintets bs, n < 32 := by
  fun_induction quintets bs with
  | case1 => simp
  | case2 a b c d e rest ih =>
    intro n hn
    rcases List.mem_cons.1 hn with rfl | hn
    · exact ofBits5_lt ..
    · exact ih n hn
  | case3 short h1 h2 =>
    match short, h1, h2 with
    | [a], _, _ => simp [ofBits5_lt]
    | [a, b], _, _ => simp [ofBits5_lt]
    | [a, b, c], _, _ => simp [ofBits5_lt]
    | [a, b, c, d], _, _ => simp [ofBits5_lt]
    | a :: b :: c :: d :: e :: r, _, h2 => exact absurd rfl (h2 a b c d e r)

theorem quintets_length (bs : List Bool) : (quintets bs).length = (bs.length + 4) / 5 := by
  have h := congrArg List.length (quintets_stream bs)
  simp only [List.length_flatMap, List.length_append, List.length_replicate] at h
  have h6 : ∀ l : List Nat, (l.map (fun n => (bits5 n).length)).sum = 5 * l.length := by
    intro l; induction l with
    | nil => rfl
    | cons a l ih => simp [bits5] at ih ⊢; omega
  rw [h6] at h
  omega

theorem symValue_alphabet (n : Nat) (h : n < 32) : symValue (alphabet.getD n 0) = n := by
  have : ∀ n : Fin 32, symValue (alphabet.getD n.val 0) = n.val := by decide +kernel
  exact this ⟨n, h⟩

theorem alphabet_mem (n : Nat) (h : n < 32) : alphabet.getD n 0 ∈ alphabet := by
  have : ∀ n : Fin 32, alphabet.getD n.val 0 ∈ alphabet := by decide +kernel
  exact this ⟨n, h⟩

theorem symbols_encode (data : List Byte) :
    symbols (Spec.encode data) = (quintets (bitStream data)).map (fun n => alphabet.getD n 0) := by
  simp only [symbols, Spec.encode]
  rw [List.takeWhile_append_of_pos]
  · have : List.takeWhile (fun c => c != pad) (List.replicate ((8 - ((quintets (bitStream data)).map (fun n => alphabet.getD n 0)).length % 8) % 8) pad) = [] := by
      rw [List.takeWhile_replicate]; simp
    simp only [this, List.append_nil]
  · intro c hc
    obtain ⟨n, hn, rfl⟩ := List.mem_map.1 hc
    have := alphabet_mem n (quintets_lt _ n hn)
    simp only [bne_iff_ne, ne_eq]
    intro h; rw [h] at this; exact pad_not_mem this

theorem symStream_encode (data : List Byte) : symStream (symbols (Spec.encode data)) =
    bitStream data ++ List.replicate ((5 - (8 * data.length) % 5) % 5) false := by
  rw [symbols_encode, ← bitStream_length data, ← quintets_stream]
  simp only [symStream, List.flatMap_map]
  have : ∀ l : List Nat, (∀ n ∈ l, n < 32) →
      l.flatMap (fun n => bits5 (symValue (alphabet.getD n 0))) = l.flatMap bits5 := by
    intro l hl; induction l with
    | nil => rfl
    | cons a l ih =>
      simp only [List.flatMap_cons, symValue_alphabet a (hl a (by simp)), ih (fun n hn => hl n (by simp [hn]))]
  exact this _ (quintets_lt _)

theorem specEncode_length (data : List Byte) : (Spec.encode data).length = encodeLength data.length := by
  simp only [Spec.encode, encodeLength, List.length_append, List.length_map, List.length_replicate,
    quintets_length, bitStream_length]
  generalize data.length = n
  have h : n = 5 * (n / 5) + n % 5 := by omega
  generalize n / 5 = m at h
  have : n % 5 < 5 := by omega
  generalize n % 5 = r at *
  subst h
  match r, this with
  | 0, _ | 1, _ | 2, _ | 3, _ | 4, _ => omega

/-- **C02 (format).** For every byte string the encoder stays inside its table and writes exactly the
RFC 4648 text, whose length is the announced one. -/
theorem base32_encode_rfc4648 (data : List (BitVec 8)) :
    encode data = some (Spec.encode data) ∧ (Spec.encode data).length = encodeLength data.length :=
  ⟨encode_eq_spec data, specEncode_length data⟩

/-- **C04 (Base32).** For every text and every output buffer with room for the announced length, the
decoder never leaves the buffer; it reports success exactly when all symbols before the first `=` are in
the alphabet, and then the buffer holds, most significant bit first, exactly the bits of the symbols
followed by zero fill, everything else being untouched. -/
theorem base32_decode_spec (text buff : List (BitVec 8)) (hb : decodeLength text.length ≤ buff.length) :
    let k := (symbols text).length
    (if ∀ c ∈ symbols text, c ∈ alphabet then
      ∃ buff', decode text buff = .ok buff' ∧ buff'.length = buff.length ∧
        bitStream (buff'.take ((5 * k + 7) / 8)) =
          symStream (symbols text) ++ List.replicate (8 * ((5 * k + 7) / 8) - 5 * k) false ∧
        buff'.drop ((5 * k + 7) / 8) = buff.drop ((5 * k + 7) / 8)
    else
      ∃ buff', decode text buff = .einval buff' ∧ buff'.length = buff.length ∧
        buff'.drop ((5 * k + 7) / 8) = buff.drop ((5 * k + 7) / 8)) := by
  intro k
  have hk : k ≤ text.length := List.Sublist.length_le (List.takeWhile_sublist _)
  have hcap : (5 * (0 + k) + 7) / 8 ≤ buff.length := by
    simp [decodeLength] at hb
    omega
  have hdrop : ∀ buff' : List Byte, (∀ j, (5 * (0 + k) + 7) / 8 ≤ j → buff'[j]? = buff[j]?) →
      buff'.drop ((5 * k + 7) / 8) = buff.drop ((5 * k + 7) / 8) := by
    intro buff' h
    apply List.ext_getElem?
    intro i
    rw [List.getElem?_drop, List.getElem?_drop]
    apply h; omega
  split
  · rename_i hv
    obtain ⟨P', buff', hd, hI, hP, hl, hu⟩ := loop_ok text 0 [] buff [] (inv_init buff) rfl hcap hv
    refine ⟨buff', hd, hl, ?_, hdrop _ hu⟩
    have := inv_stream hI hP (by simp [symStream_length])
    simpa using this
  · rename_i hv
    obtain ⟨buff', hd, hl, hu⟩ := loop_einval text 0 [] buff [] (inv_init buff) rfl hcap hv
    exact ⟨buff', hd, hl, hdrop _ hu⟩

/-- **C02.** For every byte string and every output buffer of at least the announced length, the encoder
succeeds, its text has the announced length, and decoding that text reports success and
leaves the original byte string at the start of the buffer. -/
theorem base32_roundtrip (data buff : List (BitVec 8))
    (hb : decodeLength (encodeLength data.length) ≤ buff.length) :
    ∃ text buff', encode data = some text ∧ text.length = encodeLength data.length ∧
      decode text buff = .ok buff' ∧ buff'.length = buff.length ∧ buff'.take data.length = data := by
  have hl := specEncode_length data
  have h := base32_decode_spec (Spec.encode data) buff (by rw [hl]; exact hb)
  have hval : ∀ c ∈ symbols (Spec.encode data), c ∈ alphabet := by
    rw [symbols_encode]
    intro c hc
    obtain ⟨n, hn, rfl⟩ := List.mem_map.1 hc
    exact alphabet_mem n (quintets_lt _ n hn)
  simp only [if_pos hval] at h
  obtain ⟨buff', hd, hlen, hs, _⟩ := h
  refine ⟨_, buff', encode_eq_spec data, hl, hd, hlen, ?_⟩
  rw [symStream_encode] at hs
  have hk : 5 * (symbols (Spec.encode data)).length = 8 * data.length + (5 - (8 * data.length) % 5) % 5 := by
    rw [← symStream_length, symStream_encode]; simp [bitStream_length]
  apply bitStream_inj
  have hq : data.length ≤ (5 * (symbols (Spec.encode data)).length + 7) / 8 := by omega
  generalize (5 * (symbols (Spec.encode data)).length + 7) / 8 = q at hs hq
  have h1 : buff'.take q = buff'.take data.length ++ (buff'.take q).drop data.length := by
    have := (List.take_append_drop data.length (buff'.take q)).symm
    rw [List.take_take] at this
    rwa [Nat.min_eq_left hq] at this
  rw [h1, bitStream_append, List.append_assoc] at hs
  refine (List.append_inj hs ?_).1
  rw [bitStream_length, bitStream_length, List.length_take]
  simp [decodeLength, encodeLength] at hb
  omega

-- Non-vacuity: "Hi!?" and the announced buffer.
example : decodeLength (encodeLength [72#8, 105, 33, 63].length) ≤ (List.replicate 5 0xAA#8).length := by decide
example : encode [72#8, 105, 33, 63] = some ("JBUSCPY=".toList.map (fun c => BitVec.ofNat 8 c.toNat)) := by decide +kernel
example : decode ("JBUSCPY=".toList.map (fun c => BitVec.ofNat 8 c.toNat)) (List.replicate 5 0xAA#8)
    = .ok [72#8, 105, 33, 63, 0] := by decide +kernel
example : (match decode ("JB1S".toList.map (fun c => BitVec.ofNat 8 c.toNat)) (List.replicate 5 0#8) with
    | .einval _ => true | _ => false) = true := by decide +kernel

end Bfdev.Base32

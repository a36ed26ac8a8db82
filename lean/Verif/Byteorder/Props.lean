import Verif.Byteorder.Model
/-!
Property C106 (byte order conversions).
-/
namespace Bfdev.Byteorder
open Swab

/-! ### Specification -/

/-- The bytes at `p` are those of `v`, least significant first. -/
def LeAt (n : Nat) (m : List Byte) (p : Nat) (v : BitVec (8 * n)) : Prop := ∀ j, j < n → m[p + j]? = some (byteOf v.toNat j)

/-- The bytes at `p` are those of `v`, most significant first. -/
def BeAt (n : Nat) (m : List Byte) (p : Nat) (v : BitVec (8 * n)) : Prop := ∀ j, j < n → m[p + j]? = some (byteOf v.toNat (n - 1 - j))

/-- The machine finds the word `v` at `p`. -/
def WordAt (big : Bool) (n : Nat) (m : List Byte) (p : Nat) (v : BitVec (8 * n)) : Prop := if big then BeAt n m p v else LeAt n m p v

/-- Nothing changed but `len` bytes from `p` on. -/
def Same (m m' : List Byte) (p len : Nat) : Prop := m'.length = m.length ∧ ∀ i, ¬ (p ≤ i ∧ i < p + len) → m'[i]? = m[i]?

/-- What a user of the conversions of one width relies on. -/
structure Correct (big : Bool) (n : Nat) (c : Conv n) : Prop where
  /-- A converted value, wherever the machine stores it, lies there in the order asked for; a value found in this order is what the conversion back returns. -/
  value : ∀ m p v, (WordAt big n m p (c.cpuToLe v) ↔ LeAt n m p v) ∧ (WordAt big n m p v ↔ LeAt n m p (c.leToCpu v)) ∧
    (WordAt big n m p (c.cpuToBe v) ↔ BeAt n m p v) ∧ (WordAt big n m p v ↔ BeAt n m p (c.beToCpu v))
  back : ∀ v, c.leToCpu (c.cpuToLe v) = v ∧ c.cpuToLe (c.leToCpu v) = v ∧ c.beToCpu (c.cpuToBe v) = v ∧ c.cpuToBe (c.beToCpu v) = v
  pointer : ∀ m p v, WordAt big n m p v →
    c.cpuToLeP m p = some (c.cpuToLe v) ∧ c.leToCpuP m p = some (c.leToCpu v) ∧ c.cpuToBeP m p = some (c.cpuToBe v) ∧ c.beToCpuP m p = some (c.beToCpu v)
  place : ∀ m p v,
    (WordAt big n m p v → ∃ m', c.cpuToLeS m p = some m' ∧ LeAt n m' p v ∧ Same m m' p n) ∧
    (LeAt n m p v → ∃ m', c.leToCpuS m p = some m' ∧ WordAt big n m' p v ∧ Same m m' p n) ∧
    (WordAt big n m p v → ∃ m', c.cpuToBeS m p = some m' ∧ BeAt n m' p v ∧ Same m m' p n) ∧
    (BeAt n m p v → ∃ m', c.beToCpuS m p = some m' ∧ WordAt big n m' p v ∧ Same m m' p n)
  unaligned : ∀ m p v,
    (p + n ≤ m.length → ∃ m', setLe big c m p v = some m' ∧ LeAt n m' p v ∧ Same m m' p n) ∧ (LeAt n m p v → getLe big c m p = some v) ∧
    (p + n ≤ m.length → ∃ m', setBe big c m p v = some m' ∧ BeAt n m' p v ∧ Same m m' p n) ∧ (BeAt n m p v → getBe big c m p = some v)
  /-- The arrays may be the same, apart, or overlap with the destination below. -/
  array : ∀ m dest src size, src + n * size ≤ m.length → dest + n * size ≤ m.length → dest ≤ src ∨ src + n * size ≤ dest →
    (∃ m', cpuToLeArray big c m dest src size = some m' ∧ (∀ i v, i < size → WordAt big n m (src + n * i) v → LeAt n m' (dest + n * i) v) ∧ Same m m' dest (n * size)) ∧
    (∃ m', leToCpuArray big c m dest src size = some m' ∧ (∀ i v, i < size → LeAt n m (src + n * i) v → WordAt big n m' (dest + n * i) v) ∧ Same m m' dest (n * size))

/-! ### Proofs -/

variable {big : Bool} {n : Nat} {m m' : List Byte} {p : Nat} {v : BitVec (8 * n)}

theorem word_get {j : Nat} (h : WordAt big n m p v) (hj : j < n) : m[p + j]? = some (byteOf v.toNat (if big then n - 1 - j else j)) := by
  cases big
  · exact h j hj
  · exact h j hj

theorem word_of (h : ∀ j, j < n → m[p + j]? = some (byteOf v.toNat (if big then n - 1 - j else j))) : WordAt big n m p v := by
  cases big
  · exact h
  · exact h

theorem image_length : (image big n v).length = n := by
  unfold image
  cases big <;> simp [leBytes_length]

theorem image_get {j : Nat} (hj : j < n) : (image big n v)[j]? = some (byteOf v.toNat (if big then n - 1 - j else j)) := by
  unfold image
  cases big
  · exact leBytes_get n _ j hj
  · simp only [if_true]
    rw [List.getElem?_reverse (by rw [leBytes_length]; exact hj), leBytes_length]
    exact leBytes_get n _ _ (by omega)

theorem word_fits (hn : 0 < n) (h : WordAt big n m p v) : p + n ≤ m.length := by
  have := word_get (j := n - 1) h (by omega)
  obtain ⟨hlt, _⟩ := List.getElem?_eq_some_iff.1 this
  omega

theorem rd_word (hn : 0 < n) (h : WordAt big n m p v) : rd m p n = some (image big n v) := by
  have hf := word_fits hn h
  rw [rd_eq_some hf]
  congr 1
  apply List.ext_getElem?
  intro j
  by_cases hj : j < n
  · rw [List.getElem?_take, if_pos hj, List.getElem?_drop, word_get h hj, image_get hj]
  · rw [List.getElem?_eq_none (by simp; omega), List.getElem?_eq_none (by rw [image_length]; omega)]

theorem load_word (hn : 0 < n) (h : WordAt big n m p v) : load big n m p = some v := by
  rw [load, rd_word hn h, Option.map_some]
  congr 1
  have : (if big = true then (image big n v).reverse else image big n v) = leBytes n v.toNat := by
    unfold image
    cases big <;> simp
  rw [this, ofLe_leBytes, pow256, Nat.mod_eq_of_lt v.isLt]
  simp

theorem store_word (v : BitVec (8 * n)) (h : p + n ≤ m.length) : ∃ m', store big n m p v = some m' ∧ WordAt big n m' p v ∧ Same m m' p n := by
  have hl := image_length (big := big) (v := v)
  unfold store
  rw [wr_eq_some (by omega)]
  have hget := splice_getElem? m p (image big n v) (by omega)
  refine ⟨_, rfl, word_of fun j hj => ?_, splice_length _ _ _ (by omega), fun i hi => ?_⟩
  · rw [hget, if_pos (by omega), show p + j - p = j by omega, image_get hj]
  · rw [hget, if_neg (by omega)]

theorem leBytes_ofLe : ∀ bs : List Byte, leBytes bs.length (ofLe bs) = bs
  | [] => rfl
  | b :: bs => by
    show BitVec.ofNat 8 (b.toNat + 256 * ofLe bs) :: leBytes bs.length ((b.toNat + 256 * ofLe bs) / 256) = b :: bs
    have hb : b.toNat < 256 := b.isLt
    rw [show (b.toNat + 256 * ofLe bs) / 256 = ofLe bs by omega, leBytes_ofLe bs]
    congr 1
    apply BitVec.eq_of_toNat_eq
    rw [BitVec.toNat_ofNat]
    omega

theorem ofLe_lt : ∀ bs : List Byte, ofLe bs < 256 ^ bs.length
  | [] => by simp [ofLe]
  | b :: bs => by
    have h1 : b.toNat < 256 := b.isLt
    have h2 := ofLe_lt bs
    simp only [ofLe, List.length_cons, Nat.pow_succ]
    omega

/-- Every place in the memory holds some word. -/
theorem word_exists (h : p + n ≤ m.length) : ∃ v, WordAt big n m p v := by
  obtain ⟨bs, hbs⟩ : ∃ bs : List Byte, bs = if big = true then ((m.drop p).take n).reverse else (m.drop p).take n := ⟨_, rfl⟩
  have hl : bs.length = n := by rw [hbs]; cases big <;> simp <;> omega
  have hlt : ofLe bs < 2 ^ (8 * n) := by rw [← pow256, ← hl]; exact ofLe_lt bs
  refine ⟨BitVec.ofNat (8 * n) (ofLe bs), word_of fun j hj => ?_⟩
  rw [BitVec.toNat_ofNat, Nat.mod_eq_of_lt hlt, ← leBytes_get n _ _ (by cases big <;> simp <;> omega)]
  have e : leBytes n (ofLe bs) = bs := by rw [← hl]; exact leBytes_ofLe bs
  rw [e, hbs]
  cases big
  · simp [List.getElem?_take, hj]
  · simp only [if_true]
    have hlen : ((m.drop p).take n).length = n := by simp; omega
    rw [List.getElem?_reverse (by rw [hlen]; omega), hlen, show n - 1 - (n - 1 - j) = j by omega]
    simp [List.getElem?_take, hj]

theorem Same.word (h : Same m m' p n) {q len : Nat} (hd : ∀ i, q ≤ i → i < q + len → ¬ (p ≤ i ∧ i < p + n)) {u : BitVec (8 * len)} (hw : WordAt big len m q u) : WordAt big len m' q u :=
  word_of fun j hj => (h.2 _ (hd _ (by omega) (by omega))).trans (word_get hw hj)

theorem array_word (hn : 0 < n) (f : BitVec (8 * n) → BitVec (8 * n)) (dest src : Nat) : ∀ (size index : Nat) (m : List Byte), src + n * (index + size) ≤ m.length →
    dest + n * (index + size) ≤ m.length → dest ≤ src ∨ src + n * (index + size) ≤ dest →
    ∃ m', array big n f dest src size index m = some m' ∧ (∀ i u, index ≤ i → i < index + size → WordAt big n m (src + n * i) u → WordAt big n m' (dest + n * i) (f u)) ∧
      Same m m' (dest + n * index) (n * size)
  | 0, index, m, _, _, _ => ⟨m, rfl, fun i u h1 h2 => by omega, rfl, fun _ _ => rfl⟩
  | size + 1, index, m, hs, hd, hov => by
    have e1 : n * (index + (size + 1)) = n * index + n * size + n := by rw [Nat.mul_add, Nat.mul_add]; omega
    have e2 : n * (index + 1) = n * index + n := Nat.mul_succ ..
    have e3 : n * (index + 1 + size) = n * index + n + n * size := by rw [Nat.mul_add, e2]
    rw [e1] at hs hd hov
    obtain ⟨u0, hu0⟩ := word_exists (big := big) (n := n) (m := m) (p := src + n * index) (by omega)
    obtain ⟨m1, s1, s2, s3⟩ := store_word (big := big) (m := m) (p := dest + n * index) (f u0) (by omega)
    have hl := s3.1
    obtain ⟨m', r1, r2, r3⟩ := array_word hn f dest src size (index + 1) m1 (by rw [e3]; omega) (by rw [e3]; omega) (by rw [e3]; omega)
    rw [e2] at r3
    refine ⟨m', ?_, ?_, r3.1.trans hl, ?_⟩
    · rw [array, load_word hn hu0, Option.bind_some, s1, Option.bind_some, r1]
    · intro i u hi1 hi2 hw
      by_cases hi : i = index
      · subst hi
        have : u = u0 := Option.some.inj ((load_word hn hw).symm.trans (load_word hn hu0))
        subst this
        exact r3.word (fun j h1 h2 => by omega) s2
      · have hle : n * (index + 1) ≤ n * i := Nat.mul_le_mul_left _ (by omega)
        have hge : n * i + n ≤ n * index + n * size + n := by
          have := Nat.mul_le_mul_left n (show i + 1 ≤ index + (size + 1) by omega)
          rw [e1, Nat.mul_succ] at this
          exact this
        exact r2 i u (by omega) (by omega) (s3.word (fun j h1 h2 => by omega) hw)
    · intro i hi
      have e4 : n * (size + 1) = n * size + n := Nat.mul_succ ..
      rw [e4] at hi
      rw [r3.2 i (by omega), s3.2 i (by omega)]

theorem le_swab {swab : BitVec (8 * n) → BitVec (8 * n)} (hs : ∀ v, IsSwap 8 (8 * n) v (swab v)) : LeAt n m p (swab v) ↔ BeAt n m p v := by
  unfold LeAt BeAt
  constructor <;> intro h j hj <;> have := h j hj <;> rw [byteOf_swap (hs v) j hj] at * <;> exact this

theorem be_swab {swab : BitVec (8 * n) → BitVec (8 * n)} (hs : ∀ v, IsSwap 8 (8 * n) v (swab v)) : BeAt n m p (swab v) ↔ LeAt n m p v := by
  have e : ∀ j, j < n → byteOf (swab v).toNat (n - 1 - j) = byteOf v.toNat j := by
    intro j hj
    rw [byteOf_swap (hs v) _ (by omega), show n - 1 - (n - 1 - j) = j by omega]
  unfold LeAt BeAt
  constructor <;> intro h j hj <;> have := h j hj <;> rw [e j hj] at * <;> exact this

theorem swab_swab {swab : BitVec (8 * n) → BitVec (8 * n)} (hs : ∀ v, IsSwap 8 (8 * n) v (swab v)) (v : BitVec (8 * n)) : swab (swab v) = v := by
  apply BitVec.eq_of_getLsbD_eq
  intro i hi
  have e : swapped 8 (8 * n) i = 8 * (n - 1 - i / 8) + i % 8 := by
    unfold swapped
    rw [Nat.div_eq_of_lt hi, Nat.mod_eq_of_lt hi]
    omega
  have e2 : swapped 8 (8 * n) (8 * (n - 1 - i / 8) + i % 8) = i := by
    unfold swapped
    rw [Nat.div_eq_of_lt (show 8 * (n - 1 - i / 8) + i % 8 < 8 * n by omega), Nat.mod_eq_of_lt (show 8 * (n - 1 - i / 8) + i % 8 < 8 * n by omega)]
    omega
  rw [hs _ i hi, e, hs _ _ (by omega), e2]

theorem swabS_word {swab : BitVec (8 * n) → BitVec (8 * n)} (hn : 0 < n) (h : WordAt big n m p v) : ∃ m', swabS big swab m p = some m' ∧ WordAt big n m' p (swab v) ∧ Same m m' p n := by
  obtain ⟨m', e, h1, h2⟩ := store_word (big := big) (swab v) (word_fits hn h)
  exact ⟨m', by rw [swabS, swabP, load_word hn h, Option.map_some, Option.bind_some, e], h1, h2⟩

theorem Same.refl (m : List Byte) (p len : Nat) : Same m m p len := ⟨rfl, fun _ _ => rfl⟩

theorem little_correct {swab : BitVec (8 * n) → BitVec (8 * n)} (hn : 0 < n) (hs : ∀ v, IsSwap 8 (8 * n) v (swab v)) : Correct false n (little false swab) := by
  have W : ∀ {m p} {v : BitVec (8 * n)}, WordAt false n m p v ↔ LeAt n m p v := Iff.rfl
  refine ⟨fun m p v => ⟨W, W, W.trans (le_swab hs), W.trans (be_swab hs).symm⟩, fun v => ⟨rfl, rfl, swab_swab hs v, swab_swab hs v⟩, fun m p v h => ?_, fun m p v => ?_, fun m p v => ?_, fun m dest src size h1 h2 h3 => ?_⟩
  · refine ⟨load_word hn h, load_word hn h, ?_, ?_⟩ <;> · show swabP false swab m p = _; rw [swabP, load_word hn h]; rfl
  · refine ⟨fun h => ⟨m, rfl, h, Same.refl ..⟩, fun h => ⟨m, rfl, h, Same.refl ..⟩, fun h => ?_, fun h => ?_⟩
    · obtain ⟨m', e, r1, r2⟩ := swabS_word (swab := swab) hn h
      exact ⟨m', e, (le_swab hs).1 r1, r2⟩
    · obtain ⟨m', e, r1, r2⟩ := swabS_word (big := false) (swab := swab) hn ((le_swab hs).2 h : WordAt false n m p (swab v))
      exact ⟨m', e, by rw [swab_swab hs] at r1; exact r1, r2⟩
  · refine ⟨fun h => store_word v h, fun h => ?_, fun h => ?_, fun h => ?_⟩
    · rw [getLe, load_word (big := false) hn h]; rfl
    · obtain ⟨m', e, r1, r2⟩ := store_word (big := false) (swab v) h
      exact ⟨m', e, (le_swab hs).1 r1, r2⟩
    · rw [getBe, load_word (big := false) hn ((le_swab hs).2 h : WordAt false n m p (swab v))]
      exact congrArg some (swab_swab hs v)
  · have := array_word (big := false) hn (fun x => x) dest src size 0 m (by simpa using h1) (by simpa using h2) (by simpa using h3)
    obtain ⟨m', e, r1, r2⟩ := this
    exact ⟨⟨m', e, fun i v hi hw => r1 i v (by omega) (by omega) hw, by simpa using r2⟩, ⟨m', e, fun i v hi hw => r1 i v (by omega) (by omega) hw, by simpa using r2⟩⟩

theorem big_correct {swab : BitVec (8 * n) → BitVec (8 * n)} (hn : 0 < n) (hs : ∀ v, IsSwap 8 (8 * n) v (swab v)) : Correct true n (bigHdr true swab) := by
  have W : ∀ {m p} {v : BitVec (8 * n)}, WordAt true n m p v ↔ BeAt n m p v := Iff.rfl
  refine ⟨fun m p v => ⟨W.trans (be_swab hs), W.trans (le_swab hs).symm, W, W⟩, fun v => ⟨swab_swab hs v, swab_swab hs v, rfl, rfl⟩, fun m p v h => ?_, fun m p v => ?_, fun m p v => ?_, fun m dest src size h1 h2 h3 => ?_⟩
  · refine ⟨?_, ?_, load_word hn h, load_word hn h⟩ <;> · show swabP true swab m p = _; rw [swabP, load_word hn h]; rfl
  · refine ⟨fun h => ?_, fun h => ?_, fun h => ⟨m, rfl, h, Same.refl ..⟩, fun h => ⟨m, rfl, h, Same.refl ..⟩⟩
    · obtain ⟨m', e, r1, r2⟩ := swabS_word (swab := swab) hn h
      exact ⟨m', e, (be_swab hs).1 r1, r2⟩
    · obtain ⟨m', e, r1, r2⟩ := swabS_word (big := true) (swab := swab) hn ((be_swab hs).2 h : WordAt true n m p (swab v))
      exact ⟨m', e, by rw [swab_swab hs] at r1; exact r1, r2⟩
  · refine ⟨fun h => ?_, fun h => ?_, fun h => store_word v h, fun h => ?_⟩
    · obtain ⟨m', e, r1, r2⟩ := store_word (big := true) (swab v) h
      exact ⟨m', e, (be_swab hs).1 r1, r2⟩
    · rw [getLe, load_word (big := true) hn ((be_swab hs).2 h : WordAt true n m p (swab v))]
      exact congrArg some (swab_swab hs v)
    · rw [getBe, load_word (big := true) hn h]; rfl
  · have := array_word (big := true) hn swab dest src size 0 m (by simpa using h1) (by simpa using h2) (by simpa using h3)
    obtain ⟨m', e, r1, r2⟩ := this
    refine ⟨⟨m', e, fun i v hi hw => (be_swab hs).1 (r1 i v (by omega) (by omega) hw), by simpa using r2⟩, ⟨m', e, fun i v hi hw => ?_, by simpa using r2⟩⟩
    have := r1 i (swab v) (by omega) (by omega) ((be_swab hs).2 hw : WordAt true n m _ (swab v))
    rw [swab_swab hs] at this
    exact this

/-- C106, partial. With the header made for the byte order of the machine, little or big, all conversions of 16, 32 and 64 bits, of values, through pointers, in place,
of arrays and by the unaligned accessors, do what a user relies on. Missing: a big-endian machine with the header it actually gets, see
`generic_violated`; and arrays in big-endian order, for which `bfdev_cpu_to_be_long_array` names functions that do not exist. -/
theorem byteorder_partial (big : Bool) : Correct big 2 (matching big swab16) ∧ Correct big 4 (matching big swab32) ∧ Correct big 8 (matching big swab64) := by
  obtain ⟨h2, h4, h8, _⟩ := swaps_correct
  cases big
  · exact ⟨little_correct (n := 2) (by omega) h2, little_correct (n := 4) (by omega) h4, little_correct (n := 8) (by omega) h8⟩
  · exact ⟨big_correct (n := 2) (by omega) h2, big_correct (n := 4) (by omega) h4, big_correct (n := 8) (by omega) h8⟩

/-- C106 on a little-endian machine, with the header it gets. -/
theorem generic_little : Correct false 2 (generic false swab16) ∧ Correct false 4 (generic false swab32) ∧ Correct false 8 (generic false swab64) := byteorder_partial false

/-- C106 violated on big-endian machines: the generic header takes little-endian.h on every machine, so a value converted to little-endian order and stored lies in memory
most significant byte first, and the big-endian conversions swap. -/
theorem generic_violated :
    ¬ Correct true 2 (generic true swab16) ∧ (setLe (n := 2) true (generic true swab16) [0, 0] 0 0x1234 = some [0x12, 0x34]) ∧
      (setBe (n := 2) true (generic true swab16) [0, 0] 0 0x1234 = some [0x34, 0x12]) := by
  refine ⟨fun h => ?_, by decide +kernel, by decide +kernel⟩
  obtain ⟨m', e, h1, _⟩ := (h.unaligned [0, 0] 0 0x1234).1 (by decide)
  have : m' = [0x12, 0x34] := Option.some.inj (e.symm.trans (by decide +kernel))
  subst this
  exact absurd (h1 0 (by omega)) (by decide +kernel)

/-- The same conversions with the header made for the machine, on either machine; and an array converted in place. -/
example : (∀ big, setLe (n := 4) big (matching big swab32) [9, 0, 0, 0, 0, 9] 1 0x12345678 = some [9, 0x78, 0x56, 0x34, 0x12, 9]) ∧
    (∀ big, setBe (n := 4) big (matching big swab32) [9, 0, 0, 0, 0, 9] 1 0x12345678 = some [9, 0x12, 0x34, 0x56, 0x78, 9]) ∧
    cpuToLeArray (n := 2) true (matching true swab16) [1, 2, 3, 4, 5, 6] 0 0 2 = some [2, 1, 4, 3, 5, 6] ∧
    leToCpuArray (n := 2) true (matching true swab16) [1, 2, 3, 4, 5, 6] 0 2 2 = some [4, 3, 6, 5, 5, 6] := by decide +kernel

end Bfdev.Byteorder

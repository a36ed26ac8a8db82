import Verif.Swab.Model
import Verif.Bitrev.Props
/-!
C66. Specification: in a group of `len` bits, units of `unit` bits are exchanged end for end (`swapped`); byte `j` of the word `v` is
`v / 256^j % 256`; a little-endian store puts byte `j` at address `p + j`, a big-endian store at `p + n - 1 - j`.
-/
namespace Bfdev.Swab
open Bitrev (orTerms orTerms_dest)

/-- Where bit `i` comes from when units of `unit` bits are exchanged end for end in each group of `len` bits. -/
def swapped (unit len i : Nat) : Nat := i / len * len + (len / unit - 1 - i % len / unit) * unit + i % unit

/-- The word with units exchanged. -/
def IsSwap {w : Nat} (unit len : Nat) (v r : BitVec w) : Prop := ∀ i, i < w → r.getLsbD i = v.getLsbD (swapped unit len i)

theorem swap_of {w : Nat} (ts : List (Nat × Bool × Nat)) (unit len : Nat)
    (hd : ∀ k : Fin w, orTerms ts (BitVec.twoPow w k.val) = BitVec.twoPow w (swapped unit len k.val))
    (hi : ∀ k : Fin w, swapped unit len k.val < w ∧ swapped unit len (swapped unit len k.val) = k.val) (v : BitVec w) : IsSwap unit len v (orTerms ts v) := by
  intro i h
  rw [Bool.eq_iff_iff, orTerms_dest ts (swapped unit len) hd v i h]
  constructor
  · rintro ⟨k, hk, hv, e⟩
    rw [← e, (hi ⟨k, hk⟩).2]; exact hv
  · intro hv
    exact ⟨_, (hi ⟨i, h⟩).1, hv, (hi ⟨i, h⟩).2⟩

/-- C66. Each of the swaps exchanges the units it is named after. -/
theorem swaps_correct :
    (∀ v, IsSwap 8 16 v (swab16 v)) ∧ (∀ v, IsSwap 8 32 v (swab32 v)) ∧ (∀ v, IsSwap 8 64 v (swab64 v)) ∧
    (∀ v, IsSwap 8 16 v (swahb32 v)) ∧ (∀ v, IsSwap 16 32 v (swahw32 v)) ∧
    (∀ v, IsSwap 8 16 v (swahb64 v)) ∧ (∀ v, IsSwap 16 32 v (swahw64 v)) ∧ (∀ v, IsSwap 32 64 v (swahl64 v)) := by
  refine ⟨swap_of _ _ _ ?_ ?_, swap_of _ _ _ ?_ ?_, swap_of _ _ _ ?_ ?_, swap_of _ _ _ ?_ ?_, swap_of _ _ _ ?_ ?_, swap_of _ _ _ ?_ ?_, swap_of _ _ _ ?_ ?_, swap_of _ _ _ ?_ ?_⟩ <;> decide +kernel

/-- Byte `j` of a word. -/
def byteOf (v j : Nat) : Byte := BitVec.ofNat 8 (v / 256 ^ j)

theorem leBytes_length (n v : Nat) : (leBytes n v).length = n := by
  induction n generalizing v with
  | zero => rfl
  | succ n ih => simp [leBytes, ih]

theorem leBytes_get (n v j : Nat) (h : j < n) : (leBytes n v)[j]? = some (byteOf v j) := by
  induction n generalizing v j with
  | zero => omega
  | succ n ih =>
    cases j with
    | zero => simp [leBytes, byteOf]
    | succ j =>
      rw [leBytes, List.getElem?_cons_succ, ih _ _ (by omega), byteOf, byteOf, Nat.div_div_eq_div_mul, Nat.pow_succ, Nat.mul_comm]

theorem ofLe_leBytes (n v : Nat) : ofLe (leBytes n v) = v % 256 ^ n := by
  induction n generalizing v with
  | zero => simp [leBytes, ofLe, Nat.mod_one]
  | succ n ih =>
    simp only [leBytes, ofLe, ih, BitVec.toNat_ofNat]
    rw [show 256 ^ (n + 1) = 256 * 256 ^ n by rw [Nat.pow_succ, Nat.mul_comm], Nat.mod_mul]

theorem pow256 (n : Nat) : 256 ^ n = 2 ^ (8 * n) := by rw [Nat.pow_mul]

theorem byteOf_bit (v j i : Nat) (h : i < 8) : (byteOf v j).getLsbD i = v.testBit (8 * j + i) := by
  unfold byteOf
  rw [BitVec.getLsbD_ofNat, pow256, Nat.testBit_div_two_pow, Nat.add_comm i]
  simp [h]

/-- The bytes of the swapped word are those of the word in reverse. -/
theorem byteOf_swap {n : Nat} {v r : BitVec (8 * n)} (h : IsSwap 8 (8 * n) v r) (j : Nat) (hj : j < n) : byteOf r.toNat j = byteOf v.toNat (n - 1 - j) := by
  apply BitVec.eq_of_getLsbD_eq
  intro i hi
  rw [byteOf_bit _ _ _ hi, byteOf_bit _ _ _ hi]
  have := h (8 * j + i) (by omega)
  have e : swapped 8 (8 * n) (8 * j + i) = 8 * (n - 1 - j) + i := by
    unfold swapped
    rw [Nat.div_eq_of_lt (show 8 * j + i < 8 * n by omega), Nat.mod_eq_of_lt (show 8 * j + i < 8 * n by omega)]
    omega
  rw [e] at this
  exact this

theorem set_get {n : Nat} {m : List Byte} {p : Nat} (h : p + n ≤ m.length) (v : BitVec (8 * n)) :
    ∃ m', setType n m p v = some m' ∧ getType n m' p = some v ∧ (∀ i, m'[i]? = if p ≤ i ∧ i < p + n then some (byteOf v.toNat (i - p)) else m[i]?) := by
  unfold setType getType
  have hl := leBytes_length n v.toNat
  rw [wr_eq_some (by omega)]
  have hget := splice_getElem? m p (leBytes n v.toNat) (by omega)
  refine ⟨_, rfl, ?_, ?_⟩
  · rw [rd_eq_some (by rw [splice_length _ _ _ (by omega)]; omega)]
    have e : List.take n (List.drop p (m.take p ++ leBytes n v.toNat ++ m.drop (p + (leBytes n v.toNat).length))) = leBytes n v.toNat := by
      rw [List.append_assoc, List.drop_append_of_le_length (by simp; omega)]
      rw [List.drop_eq_nil_of_le (by simp; omega), List.nil_append, List.take_append_of_le_length (by omega), List.take_of_length_le (by omega)]
    rw [e, Option.map_some, ofLe_leBytes, pow256, Nat.mod_eq_of_lt v.isLt]
    simp
  · intro i
    rw [hget, hl]
    split
    · rename_i hc
      exact leBytes_get n _ _ (by omega)
    · rfl

/-- What C66 says about one width: `n` bytes. -/
def AccessOk (n : Nat) (swab : BitVec (8 * n) → BitVec (8 * n)) (getLe getBe : List Byte → Nat → Option (BitVec (8 * n)))
    (setLe setBe : List Byte → Nat → BitVec (8 * n) → Option (List Byte)) : Prop :=
  ∀ (m : List Byte) (p : Nat) (v : BitVec (8 * n)), p + n ≤ m.length →
    (∃ m', setLe m p v = some m' ∧ getLe m' p = some v ∧ getBe m' p = some (swab v) ∧
      (∀ i, m'[i]? = if p ≤ i ∧ i < p + n then some (byteOf v.toNat (i - p)) else m[i]?)) ∧
    (∃ m', setBe m p v = some m' ∧ getBe m' p = some v ∧ getLe m' p = some (swab v) ∧
      (∀ i, m'[i]? = if p ≤ i ∧ i < p + n then some (byteOf v.toNat (n - 1 - (i - p))) else m[i]?))

theorem access_ok {n : Nat} {swab : BitVec (8 * n) → BitVec (8 * n)} (hs : ∀ v, IsSwap 8 (8 * n) v (swab v)) :
    AccessOk n swab (getType n) (fun m p => (getType n m p).map swab) (setType n) (fun m p v => setType n m p (swab v)) := by
  have hinv : ∀ v, swab (swab v) = v := by
    intro v
    apply BitVec.eq_of_getLsbD_eq
    intro i hi
    have e : swapped 8 (8 * n) i = 8 * (n - 1 - i / 8) + i % 8 := by
      unfold swapped
      rw [Nat.div_eq_of_lt hi, Nat.mod_eq_of_lt hi]
      omega
    have e2 : swapped 8 (8 * n) (8 * (n - 1 - i / 8) + i % 8) = i := by
      unfold swapped
      rw [Nat.div_eq_of_lt (show 8 * (n - 1 - i / 8) + i % 8 < 8 * n by omega), Nat.mod_eq_of_lt (show 8 * (n - 1 - i / 8) + i % 8 < 8 * n by omega)]
      omega
    rw [hs _ i hi, e, hs _ _ (by omega), e2]
  intro m p v h
  constructor
  · obtain ⟨m', e1, e2, e3⟩ := set_get h v
    exact ⟨m', e1, e2, by simp only [e2, Option.map_some], e3⟩
  · obtain ⟨m', e1, e2, e3⟩ := set_get h (swab v)
    refine ⟨m', e1, by simp only [e2, Option.map_some, hinv], e2, fun i => ?_⟩
    rw [e3]
    split
    · rw [byteOf_swap (hs v) _ (by omega)]
    · rfl

/-- C66. At 16, 32 and 64 bits: a store puts each byte where the byte order says and touches nothing else; loading with the same order returns the word,
loading with the opposite order the byte-swapped word. -/
theorem unaligned_correct :
    AccessOk 2 swab16 getLe16 getBe16 setLe16 setBe16 ∧ AccessOk 4 swab32 getLe32 getBe32 setLe32 setBe32 ∧ AccessOk 8 swab64 getLe64 getBe64 setLe64 setBe64 :=
  ⟨access_ok swaps_correct.1, access_ok swaps_correct.2.1, access_ok swaps_correct.2.2.1⟩

/-- C66. The array variants swap the first `count` elements and no other. -/
theorem array_correct {w : Nat} (f : BitVec w → BitVec w) (l : List (BitVec w)) (count : Nat) (h : count ≤ l.length) :
    swabArray f l count = some ((l.take count).map f ++ l.drop count) := by
  induction l generalizing count with
  | nil =>
    have : count = 0 := by simpa using h
    subst this; simp [swabArray]
  | cons x l ih =>
    cases count with
    | zero => simp [swabArray]
    | succ count =>
      simp only [List.length_cons] at h
      simp [swabArray, ih count (by omega)]

example : swab32 0x12345678 = 0x78563412 ∧ swahb32 0x12345678 = 0x34127856 ∧ swahw32 0x12345678 = 0x56781234 := by decide +kernel
example : setBe32 [0, 0, 0, 0, 0, 0] 1 0x12345678 = some [0, 0x12, 0x34, 0x56, 0x78, 0] := by decide +kernel

end Bfdev.Swab

import Verif.Mpi.BitModel
import Verif.Mpi.Objects
import Verif.Bitmap.Bytes
import Verif.Bitmap.LogicProps
import Verif.Bitmap.ShiftProps
/-! Lemmas about the bits of the magnitudes. -/
namespace Bfdev.Mpi
open Bitmap (Mem bitOf words Inside Writes SameOutside NoOverlap)

/-- Bit `i` of a number in base 2^64 is bit `i % 64` of limb `i / 64`. -/
theorem val_testBit (l : List Nat) : ∀ (i : Nat), Limbs l → (val l).testBit i = (l.getD (i / 64) 0).testBit (i % 64) := by
  induction l with
  | nil => intro i _; simp [val]
  | cons x l ih =>
    intro i h
    have hx : x < 2 ^ 64 := h.head
    show (x + W64 * val l).testBit i = _
    rw [show x + W64 * val l = 2 ^ 64 * val l + x by rw [Nat.add_comm], Nat.testBit_two_pow_mul_add _ hx]
    by_cases c : i < 64
    · rw [if_pos c, Nat.div_eq_of_lt c, Nat.mod_eq_of_lt c]; rfl
    · rw [if_neg c, ih _ h.tail, show i / 64 = (i - 64) / 64 + 1 by omega, show i % 64 = (i - 64) % 64 by omega]; rfl

theorem val_testBit_ge {l : List Nat} {i : Nat} (h : Limbs l) (hi : 64 * l.length ≤ i) : (val l).testBit i = false := by
  rw [val_testBit l i h, List.getD_eq_getElem?_getD, List.getElem?_eq_none (by omega)]
  simp

/-- The bits read at a pointer where the limbs of `l` lie. -/
theorem bitOf_limbs {L l : List Nat} {p k i : Nat} (h : ∀ q, q < k → L[p + q]? = l[q]?) (hk : k ≤ l.length) (hl : Limbs l) (hi : i < 64 * k) :
    bitOf (toWords L) p i = (val l).testBit i := by
  have hq : i / 64 < k := by omega
  unfold bitOf toWords
  rw [List.getElem?_map, h _ hq, val_testBit l i hl, List.getD_eq_getElem?_getD, List.getElem?_eq_getElem (by omega)]
  have hx : l[i / 64]'(by omega) < 2 ^ 64 := hl _ (List.getElem_mem _)
  show (BitVec.ofNat 64 (l[i / 64])).getLsbD (i % 64) = (l[i / 64]).testBit (i % 64)
  rw [BitVec.getLsbD_ofNat]
  simp [Nat.mod_lt i (show 64 > 0 by decide)]

/-- Words read back as limbs. -/
theorem ofWords_take {m : Mem} {n : Nat} (hn : n ≤ m.length) :
    Limbs (ofWords (m.take n)) ∧ (ofWords (m.take n)).length = n ∧ ∀ i, (val (ofWords (m.take n))).testBit i = (decide (i < 64 * n) && bitOf m 0 i) := by
  have h1 : Limbs (ofWords (m.take n)) := by
    intro x hx
    obtain ⟨v, -, rfl⟩ := List.mem_map.1 hx
    exact v.isLt
  have h2 : (ofWords (m.take n)).length = n := by simp [ofWords]; omega
  refine ⟨h1, h2, fun i => ?_⟩
  by_cases c : i < 64 * n
  · rw [val_testBit _ _ h1, List.getD_eq_getElem?_getD]
    have hq : i / 64 < n := by omega
    unfold ofWords bitOf
    rw [List.getElem?_map, List.getElem?_take, if_pos hq, Nat.zero_add, List.getElem?_eq_getElem (by omega)]
    simp [c, BitVec.testBit_toNat]
  · rw [val_testBit_ge h1 (by omega)]; simp [c]

theorem toWords_length (l : List Nat) : (toWords l).length = l.length := by simp [toWords]
theorem block_length (o : Mpi) (j : Nat → Nat) (n : Nat) : (block o j n).length = n := by simp [block]
theorem block_get {o : Mpi} {n q : Nat} (j : Nat → Nat) (h : q < n) (hq : q < o.limbs.length) : (block o j n)[q]? = o.limbs[q]? := by
  unfold block
  rw [List.getElem?_map, List.getElem?_range h, List.getElem?_eq_getElem hq]
  simp [hq, List.getD_eq_getElem?_getD]

theorem cpy_eq {m : Mem} {d s n : Nat} (hd : d + n ≤ m.length) (hs : s + n ≤ m.length) (h : d = s ∨ d + n ≤ s ∨ s + n ≤ d) :
    ∃ m', cpy m d s n = some m' ∧ m'.length = m.length ∧ ∀ a, m'[a]? = if d ≤ a ∧ a < d + n then m[s + (a - d)]? else m[a]? := by
  unfold cpy
  rw [if_pos ⟨hd, hs, h⟩]
  refine ⟨_, rfl, by simp; omega, fun a => ?_⟩
  by_cases c1 : a < d
  · rw [if_neg (by omega), List.getElem?_append_left (by simp; omega), List.getElem?_take, if_pos c1]
  · rw [List.getElem?_append_right (by simp; omega), List.length_take, Nat.min_eq_left (by omega)]
    by_cases c2 : a < d + n
    · rw [if_pos (by omega), List.getElem?_append_left (by simp; omega), List.getElem?_take, if_pos (by omega), List.getElem?_drop]
    · rw [if_neg (by omega), List.getElem?_append_right (by simp; omega), List.length_take, List.length_drop, List.getElem?_drop]
      congr 1; omega

theorem words_mul (n : Nat) : words (n * 64) = n := by unfold words; omega
theorem bitsOf_eq {n : Nat} (h : n < 2 ^ 26) : bitsOf n = n * 64 := by unfold bitsOf; omega

/-- Where an operand lies in the memory of `mpi_and`, `mpi_or` and `mpi_xor`. -/
theorem lies_a {S : Store} {d a n k q : Nat} (j : Nat → Nat) (lb : List Nat) (hk : k ≤ (S a).limbs.length) (hn : k ≤ n) (hq : q < k) :
    (block (S d) j n ++ ((S a).limbs ++ lb))[(if d = a then 0 else n) + q]? = (S a).limbs[q]? := by
  by_cases c : d = a
  · subst c
    rw [if_pos rfl, Nat.zero_add, List.getElem?_append_left (by rw [block_length]; omega), block_get j (by omega) (by omega)]
  · rw [if_neg c, List.getElem?_append_right (by rw [block_length]; omega), block_length, List.getElem?_append_left (by omega)]
    congr 1; omega
theorem lies_b {S : Store} {d b n k q : Nat} (j : Nat → Nat) (la : List Nat) (hk : k ≤ (S b).limbs.length) (hn : k ≤ n) (hq : q < k) :
    (block (S d) j n ++ (la ++ (S b).limbs))[(if d = b then 0 else n + la.length) + q]? = (S b).limbs[q]? := by
  by_cases c : d = b
  · subst c
    rw [if_pos rfl, Nat.zero_add, List.getElem?_append_left (by rw [block_length]; omega), block_get j (by omega) (by omega)]
  · rw [if_neg c, List.getElem?_append_right (by rw [block_length]; omega), block_length, List.getElem?_append_right (by omega)]
    congr 1; omega

/-- Result limbs are those of `v` when they have its bits. -/
theorem val_of_bits {l : List Nat} {v : Nat} (h : ∀ i, (val l).testBit i = v.testBit i) : val l = v := Nat.eq_of_testBit_eq h

/-- What an operation on the block does when the block was resized. -/
theorem puts_of_fit {S : Store} {g : Grant} {d n : Nat} {l : List Nat} {F : Nat → Res} (hl : l.length ≤ n)
    (h : ∀ cap, n ≤ cap → F cap = some (store S d cap l, .ok)) :
    ∃ r, (match fit (S d) (g.obj d) n with | none => some (S, Code.nomem) | some (cap, _) => F cap) = some r ∧ Puts S g d n l r := by
  cases e : fit (S d) (g.obj d) n with
  | none =>
    refine ⟨_, rfl, Or.inr ⟨rfl, fun c => ?_, fun c => ?_⟩⟩
    · obtain ⟨r, hr⟩ := fit_some (g := g.obj d) (Or.inl c); rw [e] at hr; cases hr
    · obtain ⟨r, hr⟩ := fit_some (o := S d) (Or.inr c); rw [e] at hr; cases hr
  | some r =>
    obtain ⟨cap, mv⟩ := r
    exact ⟨_, h cap (fit_ok e).1, Or.inl ⟨cap, Nat.le_trans hl (fit_ok e).1, rfl⟩⟩

theorem mpiAnd_puts {S : Store} {d a b : Nat} (g : Grant) (j : Nat → Nat) (ha : Wf (S a)) (hb : Wf (S b))
    (hs : min (S a).limbs.length (S b).limbs.length < 2 ^ 26) :
    ∃ l r, mpiAnd S g j d a b = some r ∧ Puts S g d (min (S a).limbs.length (S b).limbs.length) l r ∧
      Good l (min (S a).limbs.length (S b).limbs.length) ∧ val l = val (S a).limbs &&& val (S b).limbs := by
  unfold mpiAnd
  dsimp only
  generalize hn : min (S a).limbs.length (S b).limbs.length = n at *
  have hna : n ≤ (S a).limbs.length := by omega
  have hnb : n ≤ (S b).limbs.length := by omega
  by_cases c : n = 0
  · rw [if_pos c]
    refine ⟨_, _, rfl, mpiSeti_puts S g d 0 n (Or.inr rfl), good_seti (by decide) n (Or.inr rfl), ?_⟩
    rw [val_seti]
    rcases (by omega : (S a).limbs.length = 0 ∨ (S b).limbs.length = 0) with h | h
    · rw [List.length_eq_zero_iff.1 h]; simp [val]
    · rw [List.length_eq_zero_iff.1 h]; simp [val]
  · rw [if_neg c, bitsOf_eq hs]
    have hlen : (toWords (block (S d) j n ++ ((S a).limbs ++ (S b).limbs))).length = n + ((S a).limbs.length + (S b).limbs.length) := by
      rw [toWords_length, List.length_append, block_length, List.length_append]
    have hpa : (if d = a then 0 else n) + n ≤ n + (S a).limbs.length := by split <;> omega
    have hpb : (if d = b then 0 else n + (S a).limbs.length) + n ≤ n + ((S a).limbs.length + (S b).limbs.length) := by split <;> omega
    obtain ⟨m', r, e, ⟨hw, hbit⟩, -⟩ := Bitmap.bitmap_and (m := toWords (block (S d) j n ++ ((S a).limbs ++ (S b).limbs))) (d := 0)
      (s1 := if d = a then 0 else n) (s2 := if d = b then 0 else n + (S a).limbs.length) (bits := n * 64) false
      (by unfold Inside; rw [hlen, words_mul]; omega) (by unfold Inside; rw [hlen, words_mul]; omega) (by unfold Inside; rw [hlen, words_mul]; omega)
      (by unfold NoOverlap; rw [words_mul]; split <;> omega) (by unfold NoOverlap; rw [words_mul]; split <;> omega)
    obtain ⟨h1, h2, h3⟩ := ofWords_take (m := m') (n := n) (by rw [hw.1, hlen]; omega)
    obtain ⟨r', e', hp⟩ := puts_of_fit (S := S) (g := g) (d := d) (n := n) (l := strip (ofWords (m'.take n)))
      (F := fun cap => (Bitmap.bmAnd false (toWords (block (S d) j n ++ ((S a).limbs ++ (S b).limbs))) 0 (if d = a then 0 else n)
        (if d = b then 0 else n + (S a).limbs.length) (n * 64)).map fun r => (store S d cap (strip (ofWords (r.1.take n))), .ok))
      (by have := (good_strip h1 (Nat.le_of_eq h2)).len; omega) (fun cap _ => by rw [e]; rfl)
    refine ⟨_, r', e', hp, good_strip h1 (Nat.le_of_eq h2), ?_⟩
    rw [(strip_facts _).1]
    refine val_of_bits fun i => ?_
    rw [h3, Nat.testBit_and]
    by_cases ci : i < 64 * n
    · rw [hbit i (by rw [words_mul]; exact ci)]
      dsimp only
      rw [bitOf_limbs (fun q hq => lies_a j _ hna (Nat.le_refl _) hq) hna ha.words ci,
        bitOf_limbs (fun q hq => lies_b j _ hnb (Nat.le_refl _) hq) hnb hb.words ci]
      simp [ci, show i < n * 64 by omega]
    · rcases (by omega : (S a).limbs.length = n ∨ (S b).limbs.length = n) with h | h
      · rw [val_testBit_ge ha.words (by omega)]; simp [ci]
      · rw [val_testBit_ge hb.words (by omega)]; simp [ci]

/-- The limbs of the longer operand are copied behind the combined ones. -/
theorem copy_rest {S : Store} {d a b : Nat} (j : Nat → Nat) (ha : Wf (S a)) (hb : Wf (S b)) {m' : Mem} {f : Nat → Bool}
    (hw : Writes (toWords (block (S d) j (max (S a).limbs.length (S b).limbs.length) ++ ((S a).limbs ++ (S b).limbs))) m' 0
      (min (S a).limbs.length (S b).limbs.length * 64) f) (p : Nat × Nat × Nat)
    (hp : p = if (S a).limbs.length < (S b).limbs.length
      then (if d = b then 0 else max (S a).limbs.length (S b).limbs.length + (S a).limbs.length, (S b).limbs.length, (S a).limbs.length)
      else (if d = a then 0 else max (S a).limbs.length (S b).limbs.length, (S a).limbs.length, (S b).limbs.length)) :
    ∃ m2, cpy m' p.2.2 (p.1 + p.2.2) (p.2.1 - p.2.2) = some m2 ∧ m2.length = m'.length ∧
      ∀ i, i < 64 * max (S a).limbs.length (S b).limbs.length → bitOf m2 0 i =
        if i < 64 * min (S a).limbs.length (S b).limbs.length then f i
        else ((val (S a).limbs).testBit i || (val (S b).limbs).testBit i) := by
  obtain ⟨⟨hl, hsame⟩, hbit⟩ := hw
  rw [words_mul] at hsame hbit
  rw [toWords_length, List.length_append, block_length, List.length_append] at hl
  by_cases c : (S a).limbs.length < (S b).limbs.length
  · rw [if_pos c] at hp
    rw [Nat.max_eq_right (by omega), Nat.min_eq_left (by omega)] at *
    generalize hpt : (if d = b then 0 else (S b).limbs.length + (S a).limbs.length) = pt at *
    have hpt' : pt = 0 ∨ pt = (S b).limbs.length + (S a).limbs.length := by rw [← hpt]; split <;> simp
    subst hp
    dsimp only
    obtain ⟨m2, e2, hl2, hg⟩ := cpy_eq (m := m') (d := (S a).limbs.length) (s := pt + (S a).limbs.length) (n := (S b).limbs.length - (S a).limbs.length)
      (by omega) (by omega) (by omega)
    refine ⟨m2, e2, hl2, fun i hi => ?_⟩
    by_cases ci : i < 64 * (S a).limbs.length
    · rw [if_pos ci]
      unfold bitOf
      rw [hg, if_neg (by omega)]
      show bitOf m' 0 i = _
      rw [hbit i ci]
      simp [show i < (S a).limbs.length * 64 by omega]
    · rw [if_neg ci, val_testBit_ge ha.words (by omega), Bool.false_or]
      unfold bitOf
      rw [hg, if_pos (by omega), show pt + (S a).limbs.length + (0 + i / 64 - (S a).limbs.length) = pt + i / 64 by omega, hsame _ (by omega)]
      show bitOf _ pt i = _
      refine bitOf_limbs (k := (S b).limbs.length) (fun q hq => ?_) (Nat.le_refl _) hb.words (by omega)
      rw [← hpt]
      exact lies_b j _ (Nat.le_refl _) (Nat.le_refl _) hq
  · rw [if_neg c] at hp
    rw [Nat.max_eq_left (by omega), Nat.min_eq_right (by omega)] at *
    generalize hpt : (if d = a then 0 else (S a).limbs.length) = pt at *
    have hpt' : pt = 0 ∨ pt = (S a).limbs.length := by rw [← hpt]; split <;> simp
    subst hp
    dsimp only
    obtain ⟨m2, e2, hl2, hg⟩ := cpy_eq (m := m') (d := (S b).limbs.length) (s := pt + (S b).limbs.length) (n := (S a).limbs.length - (S b).limbs.length)
      (by omega) (by omega) (by omega)
    refine ⟨m2, e2, hl2, fun i hi => ?_⟩
    by_cases ci : i < 64 * (S b).limbs.length
    · rw [if_pos ci]
      unfold bitOf
      rw [hg, if_neg (by omega)]
      show bitOf m' 0 i = _
      rw [hbit i ci]
      simp [show i < (S b).limbs.length * 64 by omega]
    · rw [if_neg ci, val_testBit_ge hb.words (by omega), Bool.or_false]
      unfold bitOf
      rw [hg, if_pos (by omega), show pt + (S b).limbs.length + (0 + i / 64 - (S b).limbs.length) = pt + i / 64 by omega, hsame _ (by omega)]
      show bitOf _ pt i = _
      refine bitOf_limbs (k := (S a).limbs.length) (fun q hq => ?_) (Nat.le_refl _) ha.words (by omega)
      rw [← hpt]
      exact lies_a j _ (Nat.le_refl _) (Nat.le_refl _) hq

/-- Both halves of `mpi_or` and `mpi_xor`, for any bitmap operation that combines bits with `f`. -/
theorem combine {S : Store} {d a b : Nat} (j : Nat → Nat) (ha : Wf (S a)) (hb : Wf (S b)) (f : Bool → Bool → Bool) (op : Mem → Nat → Nat → Nat → Nat → Option Mem)
    (hf : ∀ x, f x false = x ∧ f false x = x)
    (hop : ∀ {m : Mem} {d s1 s2 bits : Nat}, Inside m d bits → Inside m s1 bits → Inside m s2 bits → NoOverlap d s1 bits → NoOverlap d s2 bits →
      ∃ m', op m d s1 s2 bits = some m' ∧ Writes m m' d bits (fun i => f (bitOf m s1 i) (bitOf m s2 i)))
    (n : Nat) (hn : max (S a).limbs.length (S b).limbs.length = n) :
    ∃ l m1 m2, op (toWords (block (S d) j n ++ ((S a).limbs ++ (S b).limbs))) 0 (if d = a then 0 else n) (if d = b then 0 else n + (S a).limbs.length)
        (min (S a).limbs.length (S b).limbs.length * 64) = some m1 ∧
      (∀ p, p = (if (S a).limbs.length < (S b).limbs.length then (if d = b then 0 else n + (S a).limbs.length, (S b).limbs.length, (S a).limbs.length)
        else (if d = a then 0 else n, (S a).limbs.length, (S b).limbs.length)) → cpy m1 p.2.2 (p.1 + p.2.2) (p.2.1 - p.2.2) = some m2) ∧
      ofWords (m2.take n) = l ∧ Limbs l ∧ l.length = n ∧ ∀ i, (val l).testBit i = f ((val (S a).limbs).testBit i) ((val (S b).limbs).testBit i) := by
  subst hn
  have hlen : (toWords (block (S d) j (max (S a).limbs.length (S b).limbs.length) ++ ((S a).limbs ++ (S b).limbs))).length =
      max (S a).limbs.length (S b).limbs.length + ((S a).limbs.length + (S b).limbs.length) := by
    rw [toWords_length, List.length_append, block_length, List.length_append]
  have hpa : (if d = a then 0 else max (S a).limbs.length (S b).limbs.length) = 0 ∨
    (if d = a then 0 else max (S a).limbs.length (S b).limbs.length) = max (S a).limbs.length (S b).limbs.length := by split <;> simp
  have hpb : (if d = b then 0 else max (S a).limbs.length (S b).limbs.length + (S a).limbs.length) = 0 ∨
    (if d = b then 0 else max (S a).limbs.length (S b).limbs.length + (S a).limbs.length) = max (S a).limbs.length (S b).limbs.length + (S a).limbs.length := by
    split <;> simp
  obtain ⟨m1, e1, hw⟩ := hop (m := toWords (block (S d) j (max (S a).limbs.length (S b).limbs.length) ++ ((S a).limbs ++ (S b).limbs))) (d := 0)
    (s1 := if d = a then 0 else max (S a).limbs.length (S b).limbs.length)
    (s2 := if d = b then 0 else max (S a).limbs.length (S b).limbs.length + (S a).limbs.length)
    (bits := min (S a).limbs.length (S b).limbs.length * 64)
    (by unfold Inside; rw [hlen, words_mul]; omega) (by unfold Inside; rw [hlen, words_mul]; omega) (by unfold Inside; rw [hlen, words_mul]; omega)
    (by unfold NoOverlap; rw [words_mul]; omega) (by unfold NoOverlap; rw [words_mul]; omega)
  obtain ⟨m2, e2, hl2, hbit⟩ := copy_rest j ha hb hw _ rfl
  obtain ⟨h1, h2, h3⟩ := ofWords_take (m := m2) (n := max (S a).limbs.length (S b).limbs.length) (by rw [hl2, hw.1.1, hlen]; omega)
  refine ⟨_, m1, m2, e1, fun p hp => ?_, rfl, h1, h2, fun i => ?_⟩
  · subst hp; exact e2
  · rw [h3]
    by_cases ci : i < 64 * max (S a).limbs.length (S b).limbs.length
    · rw [hbit i ci]
      by_cases ck : i < 64 * min (S a).limbs.length (S b).limbs.length
      · rw [if_pos ck, bitOf_limbs (fun q hq => lies_a (k := min (S a).limbs.length (S b).limbs.length) j _ (by omega) (by omega) hq) (by omega) ha.words ck,
          bitOf_limbs (fun q hq => lies_b (k := min (S a).limbs.length (S b).limbs.length) j _ (by omega) (by omega) hq) (by omega) hb.words ck]
        simp [ci]
      · rw [if_neg ck]
        rcases (by omega : 64 * (S a).limbs.length ≤ i ∨ 64 * (S b).limbs.length ≤ i) with h | h
        · rw [val_testBit_ge ha.words h, (hf _).2]; simp [ci]
        · rw [val_testBit_ge hb.words h, (hf _).1]; simp [ci]
    · rw [val_testBit_ge ha.words (by omega), val_testBit_ge hb.words (by omega), (hf _).1]; simp [ci]

theorem max_zero {a b : List Nat} (h : max a.length b.length = 0) : a = [] ∧ b = [] :=
  ⟨List.length_eq_zero_iff.1 (by omega), List.length_eq_zero_iff.1 (by omega)⟩

theorem mpiOr_puts {S : Store} {d a b : Nat} (g : Grant) (j : Nat → Nat) (ha : Wf (S a)) (hb : Wf (S b))
    (hs : min (S a).limbs.length (S b).limbs.length < 2 ^ 26) :
    ∃ l r, mpiOr S g j d a b = some r ∧ Puts S g d (max (S a).limbs.length (S b).limbs.length) l r ∧
      Good l (max (S a).limbs.length (S b).limbs.length) ∧ val l = val (S a).limbs ||| val (S b).limbs := by
  unfold mpiOr
  dsimp only
  generalize hn : max (S a).limbs.length (S b).limbs.length = n at *
  by_cases c : n = 0
  · rw [if_pos c]
    refine ⟨_, _, rfl, mpiSeti_puts S g d 0 n (Or.inr rfl), good_seti (by decide) n (Or.inr rfl), ?_⟩
    obtain ⟨h1, h2⟩ := max_zero (hn.trans c)
    rw [val_seti, h1, h2]; rfl
  · rw [if_neg c, bitsOf_eq hs]
    obtain ⟨l, m1, m2, e1, e2, hl, h1, h2, h3⟩ := combine (d := d) j ha hb (fun x y => x || y) (Bitmap.bmOr false) (by intro x; simp)
      (fun i1 i2 i3 o1 o2 => Bitmap.bitmap_or false i1 i2 i3 o1 o2) n hn
    have hv : val l = val (S a).limbs ||| val (S b).limbs := val_of_bits fun i => by rw [h3, Nat.testBit_or]
    have htop : l.getLast? ≠ some 0 := by
      intro h0
      obtain ⟨l', rfl⟩ : ∃ l', l = l' ++ [0] := by
        refine ⟨l.dropLast, ?_⟩
        have hne : l ≠ [] := by intro h; rw [h] at h0; cases h0
        rw [List.getLast?_eq_some_getLast hne] at h0
        rw [← Option.some.inj h0, List.dropLast_concat_getLast]
      have hlt : val (l' ++ [0]) < W64 ^ (n - 1) := by
        rw [val_concat_zero]
        have := val_lt (l := l') (fun x hx => h1 x (List.mem_append_left _ hx))
        rw [show n - 1 = l'.length by rw [← h2]; simp]
        exact this
      rcases (by omega : (S a).limbs.length = n ∨ (S b).limbs.length = n) with h | h
      · have := val_ge ha.top (by intro h'; rw [h'] at h; exact c h.symm)
        have := Nat.left_le_or (n := val (S a).limbs) (m := val (S b).limbs)
        rw [h] at *; omega
      · have := val_ge hb.top (by intro h'; rw [h'] at h; exact c h.symm)
        have := Nat.right_le_or (n := val (S a).limbs) (m := val (S b).limbs)
        rw [h] at *; omega
    refine ⟨l, ?_⟩
    rw [e1]
    simp only [Option.bind_some]
    rw [e2 _ rfl]
    simp only [Option.bind_some, hl, strip_id htop, ne_eq, not_true_eq_false, if_false]
    obtain ⟨r', e', hp⟩ := puts_of_fit (S := S) (g := g) (d := d) (n := n) (l := l) (F := fun cap => some (store S d cap l, Code.ok)) (Nat.le_of_eq h2)
      (fun cap _ => rfl)
    exact ⟨r', e', hp, ⟨h1, htop, Nat.le_of_eq h2⟩, hv⟩

theorem mpiXor_puts {S : Store} {d a b : Nat} (g : Grant) (j : Nat → Nat) (ha : Wf (S a)) (hb : Wf (S b))
    (hs : min (S a).limbs.length (S b).limbs.length < 2 ^ 26) :
    ∃ l r, mpiXor S g j d a b = some r ∧ Puts S g d (max (S a).limbs.length (S b).limbs.length) l r ∧
      Good l (max (S a).limbs.length (S b).limbs.length) ∧ val l = val (S a).limbs ^^^ val (S b).limbs := by
  unfold mpiXor
  dsimp only
  generalize hn : max (S a).limbs.length (S b).limbs.length = n at *
  by_cases c : n = 0
  · rw [if_pos c]
    refine ⟨_, _, rfl, mpiSeti_puts S g d 0 n (Or.inr rfl), good_seti (by decide) n (Or.inr rfl), ?_⟩
    obtain ⟨h1, h2⟩ := max_zero (hn.trans c)
    rw [val_seti, h1, h2]; rfl
  · rw [if_neg c, bitsOf_eq hs]
    obtain ⟨l, m1, m2, e1, e2, hl, h1, h2, h3⟩ := combine (d := d) j ha hb (fun x y => x != y) (Bitmap.bmXor false) (by intro x; simp)
      (fun i1 i2 i3 o1 o2 => Bitmap.bitmap_xor false i1 i2 i3 o1 o2) n hn
    have hv : val l = val (S a).limbs ^^^ val (S b).limbs := val_of_bits fun i => by rw [h3, Nat.testBit_xor]
    refine ⟨strip l, ?_⟩
    rw [(strip_facts l).1]
    rw [e1]
    simp only [Option.bind_some]
    rw [e2 _ rfl]
    simp only [Option.map_some, hl]
    have hg := good_strip h1 (Nat.le_of_eq h2)
    obtain ⟨r', e', hp⟩ := puts_of_fit (S := S) (g := g) (d := d) (n := n) (l := strip l) (F := fun cap => some (store S d cap (strip l), Code.ok)) hg.len (fun cap _ => rfl)
    exact ⟨r', e', hp, hg, hv⟩

theorem limbsFor_eq {shift : Nat} (h : shift + 63 < W64) : limbsFor shift = (shift + 63) / 64 := by unfold limbsFor; rw [show w64 (shift + 63) = shift + 63 from Nat.mod_eq_of_lt h]

theorem mpiShli_puts {S : Store} {d a shift : Nat} (g : Grant) (j : Nat → Nat) (ha : Wf (S a)) (hs : (S a).limbs.length + (shift + 63) / 64 < 2 ^ 26) :
    ∃ l r, mpiShli S g j d a shift = some r ∧ Puts S g d ((S a).limbs.length + (shift + 63) / 64) l r ∧
      Good l ((S a).limbs.length + (shift + 63) / 64) ∧ val l = val (S a).limbs * 2 ^ shift := by
  unfold mpiShli
  dsimp only
  by_cases c0 : shift = 0
  · rw [if_pos c0]
    subst c0
    exact ⟨_, _, rfl, mpiSet_puts g _ ha (by omega), ⟨ha.words, ha.top, by omega⟩, by simp⟩
  rw [if_neg c0]
  by_cases c1 : (S a).limbs.length = 0
  · rw [if_pos c1]
    refine ⟨_, _, rfl, mpiSeti_puts S g d 0 _ (Or.inr rfl), good_seti (by decide) _ (Or.inr rfl), ?_⟩
    rw [val_seti, List.length_eq_zero_iff.1 c1]; simp [val]
  rw [if_neg c1, limbsFor_eq (by unfold W64; omega), Nat.mod_eq_of_lt (show shift < 2 ^ 32 by omega)]
  generalize hrem : (shift + 63) / 64 = rem at *
  rw [bitsOf_eq hs]
  generalize hn : (S a).limbs.length + rem = n at *
  have hlen : (toWords (block (S d) j n ++ (S a).limbs)).length = n + (S a).limbs.length := by
    rw [toWords_length, List.length_append, block_length]
  obtain ⟨m1, e1, hl1, hb1⟩ : ∃ m1, (if d ≠ a then cpy (toWords (block (S d) j n ++ (S a).limbs)) 0 n (S a).limbs.length
      else some (toWords (block (S d) j n ++ (S a).limbs))) = some m1 ∧ m1.length = n + (S a).limbs.length ∧
      ∀ i, i < 64 * (S a).limbs.length → bitOf m1 0 i = (val (S a).limbs).testBit i := by
    by_cases cd : d = a
    · subst cd
      rw [if_neg (by simp)]
      refine ⟨_, rfl, hlen, fun i hi => bitOf_limbs (fun q hq => ?_) (Nat.le_refl _) ha.words hi⟩
      have := lies_a (S := S) (d := d) (a := d) (n := n) j [] (Nat.le_refl _) (by omega) hq
      rw [if_pos rfl, List.append_nil] at this
      exact this
    · rw [if_pos cd]
      obtain ⟨m1, e1, hl1, hg1⟩ := cpy_eq (m := toWords (block (S d) j n ++ (S a).limbs)) (d := 0) (s := n) (n := (S a).limbs.length) (by omega) (by omega) (by omega)
      refine ⟨m1, e1, by omega, fun i hi => ?_⟩
      unfold bitOf
      rw [hg1, if_pos (by omega), show n + (0 + i / 64 - 0) = n + i / 64 by omega]
      show bitOf _ n i = _
      refine bitOf_limbs (fun q hq => ?_) (Nat.le_refl _) ha.words hi
      have := lies_a (S := S) (d := d) (a := a) (n := n) j [] (Nat.le_refl _) (by omega) hq
      rw [if_neg cd, List.append_nil] at this
      exact this
  obtain ⟨m2, e2, hl2, hg2⟩ := Bitmap.zeroWords_eq rem m1 (S a).limbs.length (by omega)
  have hb2 : ∀ i, i < 64 * n → bitOf m2 0 i = (val (S a).limbs).testBit i := by
    intro i hi
    unfold bitOf
    rw [hg2]
    by_cases ci : i < 64 * (S a).limbs.length
    · rw [if_neg (by omega)]
      exact hb1 i ci
    · rw [if_pos (by omega), val_testBit_ge ha.words (by omega)]
      simp
  obtain ⟨m3, e3, hw, hb3⟩ := Bitmap.bitmap_shl false (m := m2) (d := 0) (s := 0) (shift := shift) (bits := n * 64)
    (by unfold Inside; rw [words_mul]; omega) (by unfold Inside; rw [words_mul]; omega) (by omega) (Or.inl (Nat.le_refl _)) (by intro h; cases h)
  rw [words_mul] at hb3
  obtain ⟨h1, h2, h3⟩ := ofWords_take (m := m3) (n := n) (by rw [hw.1]; omega)
  have hv : val (ofWords (m3.take n)) = val (S a).limbs * 2 ^ shift := by
    refine val_of_bits fun i => ?_
    rw [h3, ← Nat.shiftLeft_eq, Nat.testBit_shiftLeft]
    by_cases ci : i < 64 * n
    · rw [hb3 i ci]
      dsimp only
      rw [hb2 _ (by omega)]
      simp [ci, show i < n * 64 by omega]
    · rw [val_testBit_ge ha.words (by omega)]; simp [ci]
  refine ⟨strip (ofWords (m3.take n)), ?_⟩
  rw [(strip_facts _).1, e1]
  simp only [Option.bind_some]
  rw [e2]
  simp only [Option.bind_some]
  rw [e3]
  simp only [Option.map_some]
  have hg := good_strip h1 (Nat.le_of_eq h2)
  obtain ⟨r', e', hp⟩ := puts_of_fit (S := S) (g := g) (d := d) (n := n) (l := strip (ofWords (m3.take n)))
    (F := fun cap => some (store S d cap (strip (ofWords (m3.take n))), Code.ok)) hg.len (fun cap _ => rfl)
  exact ⟨r', e', hp, hg, hv⟩

theorem mpiShri_puts {S : Store} {d a shift : Nat} (g : Grant) (j : Nat → Nat) (ha : Wf (S a)) (hl : (S a).limbs.length < 2 ^ 26) (hs : shift < 2 ^ 32) :
    ∃ l r, mpiShri S g j d a shift = some r ∧ Puts S g d (S a).limbs.length l r ∧ Good l (S a).limbs.length ∧ val l = val (S a).limbs / 2 ^ shift := by
  unfold mpiShri
  dsimp only
  by_cases c0 : shift = 0
  · rw [if_pos c0]
    subst c0
    exact ⟨_, _, rfl, mpiSet_puts g _ ha (by omega), ⟨ha.words, ha.top, by omega⟩, by simp⟩
  rw [if_neg c0]
  by_cases c1 : (S a).limbs.length = 0
  · rw [if_pos c1]
    refine ⟨_, _, rfl, mpiSeti_puts S g d 0 _ (Or.inr rfl), good_seti (by decide) _ (Or.inr rfl), ?_⟩
    rw [val_seti, List.length_eq_zero_iff.1 c1]; simp [val]
  rw [if_neg c1, Nat.mod_eq_of_lt hs, bitsOf_eq hl]
  generalize hn : (S a).limbs.length = n at *
  have hlen : (toWords (block (S d) j n ++ (S a).limbs)).length = n + n := by
    rw [toWords_length, List.length_append, block_length, hn]
  have hpt : (if d = a then 0 else n) = 0 ∨ (if d = a then 0 else n) = n := by split <;> simp
  obtain ⟨m3, e3, hw, hb3⟩ := Bitmap.bitmap_shr_partial false (m := toWords (block (S d) j n ++ (S a).limbs)) (d := 0) (s := if d = a then 0 else n)
    (shift := shift) (bits := n * 64)
    (by unfold Inside; rw [words_mul]; omega) (by unfold Inside; rw [words_mul]; omega) (by omega) (Or.inl (Nat.zero_le _)) (by intro h; cases h)
    (Or.inr (Or.inl (by omega)))
  rw [words_mul] at hb3
  obtain ⟨h1, h2, h3⟩ := ofWords_take (m := m3) (n := n) (by rw [hw.1]; omega)
  have hv : val (ofWords (m3.take n)) = val (S a).limbs / 2 ^ shift := by
    refine val_of_bits fun i => ?_
    rw [h3, ← Nat.shiftRight_eq_div_pow, Nat.testBit_shiftRight]
    by_cases ci : i + shift < 64 * n
    · have hb := bitOf_limbs (i := i + shift) (fun q hq => lies_a (S := S) (d := d) (a := a) (n := n) (k := n) j [] (by omega) (Nat.le_refl _) hq) (by omega) ha.words ci
      rw [List.append_nil] at hb
      rw [hb3 i (by omega)]
      dsimp only
      rw [hb, Nat.add_comm shift i]
      simp [show i < 64 * n by omega, show i < n * 64 by omega, show i + shift < n * 64 by omega]
    · rw [val_testBit_ge ha.words (by omega)]
      by_cases cj : i < 64 * n
      · rw [hb3 i cj]; simp [show ¬ i + shift < n * 64 by omega]
      · simp [cj]
  refine ⟨strip (ofWords (m3.take n)), ?_⟩
  rw [(strip_facts _).1, e3]
  simp only [Option.map_some]
  have hg := good_strip h1 (Nat.le_of_eq h2)
  obtain ⟨r', e', hp⟩ := puts_of_fit (S := S) (g := g) (d := d) (n := n) (l := strip (ofWords (m3.take n)))
    (F := fun cap => some (store S d cap (strip (ofWords (m3.take n))), Code.ok)) hg.len (fun cap _ => rfl)
  exact ⟨r', e', hp, hg, hv⟩

end Bfdev.Mpi

import Verif.Digest.Props
/-!
C133: two messages get the same digest only if the compression function gives the same result for two different inputs it was called with.
-/
namespace Bfdev.Digest
open Spec

/-! ### Specification -/

/-- What a compression function is called with, one block after the other: the value so far and the block. -/
def calls (comp : List W32 → List Byte → List W32) (st : List W32) : List (List Byte) → List (List W32 × List Byte)
  | [] => []
  | b :: bs => (st, b) :: calls comp (comp st b) bs

/-- While the digests of the two messages are made, the compression function gives the same result for two different inputs. -/
def Collides (comp : List W32 → List Byte → List W32) (iv : List W32) (len64 : Nat → List Byte) (m1 m2 : List Byte) : Prop :=
  ∃ x ∈ calls comp iv (blocks (pad len64 m1)), ∃ y ∈ calls comp iv (blocks (pad len64 m2)), x ≠ y ∧ comp x.1 x.2 = comp y.1 y.2

/-- The value after the last block. -/
def final (comp : List W32 → List Byte → List W32) (iv : List W32) (len64 : Nat → List Byte) (msg : List Byte) : List W32 := (blocks (pad len64 msg)).foldl comp iv

/-! ### Folding -/

theorem calls_last (comp : List W32 → List Byte → List W32) (b : List Byte) : ∀ (bs : List (List Byte)) (st : List W32),
    calls comp st (bs ++ [b]) = calls comp st bs ++ [(bs.foldl comp st, b)]
  | [], _ => rfl
  | c :: bs, st => by
    rw [List.cons_append, calls, calls_last comp b bs, calls, List.foldl_cons, List.cons_append]

theorem snoc {α : Type} {l : List α} {n : Nat} (h : l.length = n + 1) : ∃ t x, l = t ++ [x] ∧ t.length = n :=
  ⟨l.dropLast, l.getLast (by intro e; rw [e] at h; simp at h), (List.dropLast_concat_getLast _).symm, by rw [List.length_dropLast]; omega⟩

/-- The same number of blocks. -/
theorem fold_collision (comp : List W32 → List Byte → List W32) (iv : List W32) : ∀ (n : Nat) (b1 b2 : List (List Byte)), b1.length = n → b2.length = n →
    b1.foldl comp iv = b2.foldl comp iv → b1 = b2 ∨ ∃ x ∈ calls comp iv b1, ∃ y ∈ calls comp iv b2, x ≠ y ∧ comp x.1 x.2 = comp y.1 y.2
  | 0, b1, b2, h1, h2, _ => Or.inl (by rw [List.length_eq_zero_iff.1 h1, List.length_eq_zero_iff.1 h2])
  | n + 1, b1, b2, h1, h2, e => by
    obtain ⟨c1, x1, rfl, l1⟩ := snoc h1
    obtain ⟨c2, x2, rfl, l2⟩ := snoc h2
    rw [List.foldl_append, List.foldl_append] at e
    by_cases hx : ((c1.foldl comp iv, x1) : List W32 × List Byte) = (c2.foldl comp iv, x2)
    · obtain ⟨hc, rfl⟩ := Prod.mk.inj hx
      rcases fold_collision comp iv n c1 c2 l1 l2 hc with h | ⟨x, hx, y, hy, h⟩
      · exact Or.inl (by rw [h])
      · refine Or.inr ⟨x, ?_, y, ?_, h⟩
        · rw [calls_last]; exact List.mem_append_left _ hx
        · rw [calls_last]; exact List.mem_append_left _ hy
    · refine Or.inr ⟨_, ?_, _, ?_, hx, e⟩
      · rw [calls_last]; exact List.mem_append_right _ List.mem_cons_self
      · rw [calls_last]; exact List.mem_append_right _ List.mem_cons_self

/-! ### Padding -/

theorem digits256 (n m : Nat) : ∀ k, n / 256 ^ k = m / 256 ^ k → (∀ i, i < k → n / 256 ^ i % 256 = m / 256 ^ i % 256) → n = m
  | 0, h, _ => by simpa using h
  | k + 1, h, hd => by
    refine digits256 n m k ?_ fun i hi => hd i (by omega)
    have := hd k (by omega)
    rw [Nat.pow_succ, ← Nat.div_div_eq_div_mul, ← Nat.div_div_eq_div_mul] at h
    omega

theorem ofNat8 {a b : Nat} (h : BitVec.ofNat 8 a = BitVec.ofNat 8 b) : a % 256 = b % 256 := by
  have := congrArg BitVec.toNat h
  simpa using this

theorem le64_inj {n m : Nat} (hn : n < 2 ^ 64) (hm : m < 2 ^ 64) (h : le64 n = le64 m) : n = m := by
  refine digits256 n m 8 (by rw [Nat.div_eq_of_lt hn, Nat.div_eq_of_lt hm]) fun i hi => ?_
  have := congrArg (fun l => l[i]?) h
  simp only [le64, List.getElem?_map, List.getElem?_range hi, Option.map_some, Option.some.injEq] at this
  exact ofNat8 this

theorem be64_inj {n m : Nat} (hn : n < 2 ^ 64) (hm : m < 2 ^ 64) (h : be64 n = be64 m) : n = m := by
  refine digits256 n m 8 (by rw [Nat.div_eq_of_lt hn, Nat.div_eq_of_lt hm]) fun i hi => ?_
  have := congrArg (fun l => l[7 - i]?) h
  simp only [be64, List.getElem?_map, List.getElem?_range (show 7 - i < 8 by omega), Option.map_some, Option.some.injEq, show 7 - (7 - i) = i by omega] at this
  exact ofNat8 this

theorem blocks_flatten : ∀ (n : Nat) (l : List Byte), l.length = 64 * n → (blocks l).flatten = l
  | 0, l, h => by
    have : l = [] := List.length_eq_zero_iff.1 (by omega)
    subst this
    rfl
  | n + 1, l, h => by
    have h1 : (l.take 64).length = 64 := by rw [List.length_take]; omega
    conv => lhs; rw [← List.take_append_drop 64 l]
    rw [blocks_append _ _ (by rw [h1]), blocks_one _ h1, List.flatten_append, blocks_flatten n _ (by rw [List.length_drop]; omega)]
    simp

theorem pad_length {len64 : Nat → List Byte} (hl : ∀ n, (len64 n).length = 8) (msg : List Byte) :
    (pad len64 msg).length = msg.length + 1 + (119 - msg.length % 64) % 64 + 8 ∧ (pad len64 msg).length % 64 = 0 := by
  have : (pad len64 msg).length = msg.length + 1 + (119 - msg.length % 64) % 64 + 8 := by simp [pad, hl]; omega
  refine ⟨this, ?_⟩
  rw [this]
  omega

/-- The last block ends with the length. -/
theorem last_block {len64 : Nat → List Byte} (hl : ∀ n, (len64 n).length = 8) (msg : List Byte) :
    ∃ bs b, blocks (pad len64 msg) = bs ++ [b] ∧ b.drop 56 = len64 (8 * msg.length) := by
  have hlen := pad_length hl msg
  obtain ⟨q, hq⟩ : ∃ q, (pad len64 msg).length = 64 * q + 64 := ⟨(pad len64 msg).length / 64 - 1, by omega⟩
  have hd : ((pad len64 msg).drop (64 * q)).length = 64 := by rw [List.length_drop]; omega
  refine ⟨blocks ((pad len64 msg).take (64 * q)), (pad len64 msg).drop (64 * q), ?_, ?_⟩
  · conv => lhs; rw [← List.take_append_drop (64 * q) (pad len64 msg)]
    rw [blocks_append _ _ (by rw [List.length_take]; omega), blocks_one _ hd]
  · rw [List.drop_drop]
    unfold pad
    rw [List.drop_left' (by rw [← show _ = _ from hlen.1] at *; simp; simp [pad, hl] at hq; omega)]

/-- Two messages with the same value after the last block. -/
theorem collides {comp : List W32 → List Byte → List W32} {iv : List W32} {len64 : Nat → List Byte} (hl : ∀ n, (len64 n).length = 8)
    (hi : ∀ n m, n < 2 ^ 64 → m < 2 ^ 64 → len64 n = len64 m → n = m) {m1 m2 : List Byte} (h1 : m1.length < 2 ^ 61) (h2 : m2.length < 2 ^ 61) (hne : m1 ≠ m2)
    (e : final comp iv len64 m1 = final comp iv len64 m2) : Collides comp iv len64 m1 m2 := by
  unfold final at e
  by_cases hlen : m1.length = m2.length
  · have hp1 := pad_length hl m1
    have hp2 := pad_length hl m2
    have hpl : (pad len64 m1).length = (pad len64 m2).length := by rw [hp1.1, hp2.1, hlen]
    have hb : (blocks (pad len64 m1)).length = (blocks (pad len64 m2)).length := by simp [blocks, hpl]
    rcases fold_collision comp iv _ _ _ rfl hb.symm e with h | h
    · have f1 := blocks_flatten ((pad len64 m1).length / 64) (pad len64 m1) (by omega)
      have f2 := blocks_flatten ((pad len64 m2).length / 64) (pad len64 m2) (by omega)
      rw [h, f2] at f1
      apply absurd _ hne
      unfold pad at f1
      rw [List.append_assoc, List.append_assoc, List.append_assoc, List.append_assoc] at f1
      exact ((List.append_inj f1 hlen.symm).1).symm
    · exact h
  · obtain ⟨c1, x1, e1, l1⟩ := last_block hl m1
    obtain ⟨c2, x2, e2, l2⟩ := last_block hl m2
    rw [e1, e2, List.foldl_append, List.foldl_append] at e
    unfold Collides
    rw [e1, e2, calls_last, calls_last]
    refine ⟨_, List.mem_append_right _ List.mem_cons_self, _, List.mem_append_right _ List.mem_cons_self, fun hx => hlen ?_, e⟩
    have hx2 : x1 = x2 := (Prod.mk.inj hx).2
    have := hi (8 * m1.length) (8 * m2.length) (by omega) (by omega) (by rw [← l1, ← l2, hx2])
    omega

/-! ### Output -/

theorem flatMap_inj {out : W32 → List Byte} (h4 : ∀ v, (out v).length = 4) (hi : ∀ v w, out v = out w → v = w) :
    ∀ (a b : List W32), a.length = b.length → a.flatMap out = b.flatMap out → a = b
  | [], [], _, _ => rfl
  | [], _ :: _, h, _ => by simp at h
  | _ :: _, [], h, _ => by simp at h
  | x :: a, y :: b, h, e => by
    rw [List.flatMap_cons, List.flatMap_cons] at e
    obtain ⟨e1, e2⟩ := List.append_inj e (by rw [h4, h4])
    rw [hi x y e1, flatMap_inj h4 hi a b (by simpa using h) e2]

theorem word_ext {v w : W32} (h : ∀ k, k < 4 → v.extractLsb' (8 * k) 8 = w.extractLsb' (8 * k) 8) : v = w := by
  apply BitVec.eq_of_getLsbD_eq
  intro i hi
  have := congrArg (fun x => x.getLsbD (i % 8)) (h (i / 8) (by omega))
  simp only [BitVec.getLsbD_extractLsb', show i % 8 < 8 by omega, decide_true, Bool.true_and, show 8 * (i / 8) + i % 8 = i by omega] at this
  exact this

theorem beBytes_inj (v w : W32) (h : beBytes v = beBytes w) : v = w := by
  simp only [beBytes, List.cons.injEq, and_true] at h
  apply word_ext
  intro k hk
  rcases (by omega : k = 0 ∨ k = 1 ∨ k = 2 ∨ k = 3) with rfl | rfl | rfl | rfl
  · exact h.2.2.2
  · exact h.2.2.1
  · exact h.2.1
  · exact h.1

theorem leBytes_inj (v w : W32) (h : leBytes v = leBytes w) : v = w := by
  simp only [leBytes, List.cons.injEq, and_true] at h
  apply word_ext
  intro k hk
  rcases (by omega : k = 0 ∨ k = 1 ∨ k = 2 ∨ k = 3) with rfl | rfl | rfl | rfl
  · exact h.1
  · exact h.2.1
  · exact h.2.2.1
  · exact h.2.2.2

theorem cut {h1 : List Byte} {p q : Nat} {d1 d2 : List Byte} (e : some (h1.take p ++ d1 ++ h1.drop q) = some (h1.take p ++ d2 ++ h1.drop q)) : d1 = d2 := by
  rw [Option.some.injEq, List.append_assoc, List.append_assoc] at e
  exact List.append_cancel_right (List.append_cancel_left e)

theorem final_eq {comp : List W32 → List Byte → List W32} {iv : List W32} {len64 : Nat → List Byte} {out : W32 → List Byte} {words n : Nat}
    (hcl : ∀ st blk, st.length = n → (comp st blk).length = n) (hiv : iv.length = n) (h4 : ∀ v, (out v).length = 4) (hi : ∀ v w, out v = out w → v = w)
    {m1 m2 : List Byte} (e : digest comp iv len64 out words m1 = digest comp iv len64 out words m2) :
    (final comp iv len64 m1).take words = (final comp iv len64 m2).take words ∧ (final comp iv len64 m1).length = n ∧ (final comp iv len64 m2).length = n := by
  have l1 : (final comp iv len64 m1).length = n := foldl_length hcl (blocks (pad len64 m1)) iv hiv
  have l2 : (final comp iv len64 m2).length = n := foldl_length hcl (blocks (pad len64 m2)) iv hiv
  exact ⟨flatMap_inj h4 hi _ _ (by rw [List.length_take, List.length_take, l1, l2]) e, l1, l2⟩

/-! ### C133 -/

/-- **C133.** MD5. -/
theorem md5_collision {ctx1 ctx2 : Ctx} (hb1 : ctx1.buffer.length = 64) (hb2 : ctx2.buffer.length = 64) (c1 c2 : List (List Byte)) (hash : List Byte) (p : Nat)
    (hp : p + 16 ≤ hash.length) (hs1 : c1.flatten.length < 2 ^ 61) (hs2 : c2.flatten.length < 2 ^ 61) (hne : c1.flatten ≠ c2.flatten)
    (e : session md5Iv md5Update md5Finish ctx1 c1 hash p = session md5Iv md5Update md5Finish ctx2 c2 hash p) :
    Collides md5Comp [0x67452301, 0xefcdab89, 0x98badcfe, 0x10325476] le64 c1.flatten c2.flatten := by
  rw [md5_correct hb1 _ _ _ hp, md5_correct hb2 _ _ _ hp] at e
  obtain ⟨h1, h2, h3⟩ := final_eq (n := 4) md5Block_folds.1 rfl (fun _ => rfl) leBytes_inj (cut e)
  rw [List.take_of_length_le (by omega), List.take_of_length_le (by omega)] at h1
  exact collides (fun n => by simp [le64]) (fun n m => le64_inj) hs1 hs2 hne h1

theorem chunk_lt {c : List (List Byte)} (h : c.flatten.length < 2 ^ 61) : ∀ d ∈ c, d.length < 2 ^ 63 := by
  intro d hd
  have : d.length ≤ c.flatten.length := (List.sublist_flatten_of_mem hd).length_le
  omega

/-- **C133.** SHA-1. -/
theorem sha1_collision {ctx1 ctx2 : Ctx} (hb1 : ctx1.buffer.length = 64) (hb2 : ctx2.buffer.length = 64) (c1 c2 : List (List Byte)) (hash : List Byte) (p : Nat)
    (hp : p + 20 ≤ hash.length) (hs1 : c1.flatten.length < 2 ^ 61) (hs2 : c2.flatten.length < 2 ^ 61) (hne : c1.flatten ≠ c2.flatten)
    (e : session sha1Iv sha1Update sha1Finish ctx1 c1 hash p = session sha1Iv sha1Update sha1Finish ctx2 c2 hash p) :
    Collides sha1Comp [0x67452301, 0xefcdab89, 0x98badcfe, 0x10325476, 0xc3d2e1f0] be64 c1.flatten c2.flatten := by
  rw [sha1_correct hb1 (chunk_lt hs1) _ _ hp, sha1_correct hb2 (chunk_lt hs2) _ _ hp] at e
  obtain ⟨h1, h2, h3⟩ := final_eq (n := 5) sha1Block_folds.1 rfl (fun _ => rfl) beBytes_inj (cut e)
  rw [List.take_of_length_le (by omega), List.take_of_length_le (by omega)] at h1
  exact collides be64_length (fun n m => be64_inj) hs1 hs2 hne h1

/-- **C133.** SHA-256. -/
theorem sha256_collision {ctx1 ctx2 : Ctx} (hb1 : ctx1.buffer.length = 64) (hb2 : ctx2.buffer.length = 64) (c1 c2 : List (List Byte)) (hash : List Byte) (p : Nat)
    (hp : p + 32 ≤ hash.length) (hs1 : c1.flatten.length < 2 ^ 61) (hs2 : c2.flatten.length < 2 ^ 61) (hne : c1.flatten ≠ c2.flatten)
    (e : session sha256Iv sha2Update sha256Finish ctx1 c1 hash p = session sha256Iv sha2Update sha256Finish ctx2 c2 hash p) :
    Collides (sha2Comp fun t => sha2K.getD t 0) sha256Iv be64 c1.flatten c2.flatten := by
  rw [sha256_correct hb1 (chunk_lt hs1) _ _ hp, sha256_correct hb2 (chunk_lt hs2) _ _ hp] at e
  obtain ⟨h1, h2, h3⟩ := final_eq (n := 8) sha2Block_folds.1 rfl (fun _ => rfl) beBytes_inj (cut e)
  rw [List.take_of_length_le (by omega), List.take_of_length_le (by omega)] at h1
  exact collides be64_length (fun n m => be64_inj) hs1 hs2 hne h1

/-- **C133.** SHA-224, which leaves out the last of eight words: the same, or the values after the last block differ in that word alone. -/
theorem sha224_collision {ctx1 ctx2 : Ctx} (hb1 : ctx1.buffer.length = 64) (hb2 : ctx2.buffer.length = 64) (c1 c2 : List (List Byte)) (hash : List Byte) (p : Nat)
    (hp : p + 28 ≤ hash.length) (hs1 : c1.flatten.length < 2 ^ 61) (hs2 : c2.flatten.length < 2 ^ 61) (hne : c1.flatten ≠ c2.flatten)
    (e : session sha224Iv sha2Update sha224Finish ctx1 c1 hash p = session sha224Iv sha2Update sha224Finish ctx2 c2 hash p) :
    Collides (sha2Comp fun t => sha2K.getD t 0) sha224Iv be64 c1.flatten c2.flatten ∨
    ((final (sha2Comp fun t => sha2K.getD t 0) sha224Iv be64 c1.flatten).take 7 = (final (sha2Comp fun t => sha2K.getD t 0) sha224Iv be64 c2.flatten).take 7 ∧
      (final (sha2Comp fun t => sha2K.getD t 0) sha224Iv be64 c1.flatten)[7]? ≠ (final (sha2Comp fun t => sha2K.getD t 0) sha224Iv be64 c2.flatten)[7]?) := by
  rw [sha224_correct hb1 (chunk_lt hs1) _ _ hp, sha224_correct hb2 (chunk_lt hs2) _ _ hp] at e
  obtain ⟨h1, h2, h3⟩ := final_eq (n := 8) sha2Block_folds.1 rfl (fun _ => rfl) beBytes_inj (cut e)
  replace h1 : (final (sha2Comp fun t => sha2K.getD t 0) sha224Iv be64 c1.flatten).take 7 = (final (sha2Comp fun t => sha2K.getD t 0) sha224Iv be64 c2.flatten).take 7 := h1
  replace h2 : (final (sha2Comp fun t => sha2K.getD t 0) sha224Iv be64 c1.flatten).length = 8 := h2
  replace h3 : (final (sha2Comp fun t => sha2K.getD t 0) sha224Iv be64 c2.flatten).length = 8 := h3
  by_cases h7 : (final (sha2Comp fun t => sha2K.getD t 0) sha224Iv be64 c1.flatten)[7]? = (final (sha2Comp fun t => sha2K.getD t 0) sha224Iv be64 c2.flatten)[7]?
  · refine Or.inl (collides be64_length (fun n m => be64_inj) hs1 hs2 hne ?_)
    generalize final (sha2Comp fun t => sha2K.getD t 0) sha224Iv be64 c1.flatten = a at *
    generalize final (sha2Comp fun t => sha2K.getD t 0) sha224Iv be64 c2.flatten = b at *
    have e1 : a = a.take (7 + 1) := (List.take_of_length_le (by omega)).symm
    have e2 : b = b.take (7 + 1) := (List.take_of_length_le (by omega)).symm
    rw [e1, e2, List.take_add_one (l := a) (i := 7), List.take_add_one (l := b) (i := 7), h1, h7]
  · exact Or.inr ⟨h1, h7⟩

/-- Not vacuous: a compression function that adds bytes gives the messages "ab" and "ba" the same value, and the calls that collide are the ones
with the two blocks. -/
example : Collides (fun st blk => [st.getD 0 0 + (blk.foldl (fun s b => s + b.setWidth 32) 0)]) [0] be64 [0x61, 0x62] [0x62, 0x61] :=
  collides be64_length (fun n m => be64_inj) (by decide) (by decide) (by decide) (by decide +kernel)

end Bfdev.Digest

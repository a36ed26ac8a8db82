import Verif.Digest.Lemmas
set_option linter.unusedSimpArgs false
/-!
Words in memory and the MD5 streaming layer.
-/
namespace Bfdev.Digest
open Spec (blocks pad beWord leWord byte)

/-! ### Words in memory -/

theorem getLsbD_split (v : W32) (j i : Nat) (hj : j < 4) (hi : i < 8) : (Swab.byteOf v.toNat j).getLsbD i = v.getLsbD (8 * j + i) := by
  rw [Swab.byteOf_bit _ _ _ hi]
  rfl

theorem byteOf_append (b0 b1 b2 b3 : Byte) (j : Nat) (hj : j < 4) :
    Swab.byteOf (b0 ++ b1 ++ b2 ++ b3 : W32).toNat j = [b3, b2, b1, b0][j] := by
  apply BitVec.eq_of_getLsbD_eq
  intro i hi
  rw [getLsbD_split _ _ _ hj hi]
  simp only [BitVec.getLsbD_append]
  match j, hj with
  | 0, _ => simp [hi]
  | 1, _ => simp [hi, show ¬ 8 + i < 8 by omega]
  | 2, _ => simp [hi, show ¬ 16 + i < 8 by omega, show ¬ 16 + i - 8 < 8 by omega, show 16 + i - 8 - 8 = i by omega]
  | 3, _ => simp [hi, show ¬ 24 + i < 8 by omega, show ¬ 24 + i - 8 < 8 by omega, show ¬ 24 + i - 8 - 8 < 8 by omega, show 24 + i - 8 - 8 - 8 = i by omega]

theorem getD_some {d : List Byte} {i : Nat} (h : i < d.length) : d[i]? = some (d.getD i 0) := by
  rw [List.getD_eq_getElem?_getD, List.getElem?_eq_getElem h]
  rfl

theorem cases4 {p i : Nat} (h : p ≤ i ∧ i < p + 4) : i = p ∨ i = p + 1 ∨ i = p + 2 ∨ i = p + 3 := by omega

theorem getBe32_ok {d : List Byte} {p : Nat} (h : p + 4 ≤ d.length) :
    Swab.getBe32 d p = some (d.getD p 0 ++ d.getD (p + 1) 0 ++ d.getD (p + 2) 0 ++ d.getD (p + 3) 0) := by
  obtain ⟨m', h1, h2, -, h3⟩ := (Swab.unaligned_correct.2.1 d p (d.getD p 0 ++ d.getD (p + 1) 0 ++ d.getD (p + 2) 0 ++ d.getD (p + 3) 0) h).2
  have e : m' = d := by
    apply List.ext_getElem?
    intro i
    rw [h3]
    split
    · rename_i hc
      rw [byteOf_append _ _ _ _ _ (by omega)]
      rcases cases4 hc with e | e | e | e <;> subst e <;> simp only [Nat.sub_self, Nat.sub_zero, Nat.add_sub_cancel_left] <;> exact (getD_some (by omega)).symm
    · rfl
  rw [← h2, e]

theorem getLe32_ok {d : List Byte} {p : Nat} (h : p + 4 ≤ d.length) :
    Swab.getLe32 d p = some (d.getD (p + 3) 0 ++ d.getD (p + 2) 0 ++ d.getD (p + 1) 0 ++ d.getD p 0) := by
  obtain ⟨m', h1, h2, -, h3⟩ := (Swab.unaligned_correct.2.1 d p (d.getD (p + 3) 0 ++ d.getD (p + 2) 0 ++ d.getD (p + 1) 0 ++ d.getD p 0) h).1
  have e : m' = d := by
    apply List.ext_getElem?
    intro i
    rw [h3]
    split
    · rename_i hc
      rw [byteOf_append _ _ _ _ _ (by omega)]
      rcases cases4 hc with e | e | e | e <;> subst e <;> simp only [Nat.sub_self, Nat.sub_zero, Nat.add_sub_cancel_left] <;> exact (getD_some (by omega)).symm
    · rfl
  rw [← h2, e]

theorem byteOf_extract (v : W32) (j : Nat) (hj : j < 4) : Swab.byteOf v.toNat j = v.extractLsb' (8 * j) 8 := by
  apply BitVec.eq_of_getLsbD_eq
  intro i hi
  rw [getLsbD_split _ _ _ hj hi, BitVec.getLsbD_extractLsb']
  simp [hi]

theorem splice_of {m m' : List Byte} {p : Nat} {bs : List Byte} (h : p + bs.length ≤ m.length)
    (hg : ∀ i, m'[i]? = if p ≤ i ∧ i < p + bs.length then bs[i - p]? else m[i]?) : m' = m.take p ++ bs ++ m.drop (p + bs.length) := by
  apply List.ext_getElem?
  intro i
  rw [hg, splice_getElem? _ _ _ h]

theorem setBe32_ok {m : List Byte} {p : Nat} (v : W32) (h : p + 4 ≤ m.length) :
    Swab.setBe32 m p v = some (m.take p ++ Spec.beBytes v ++ m.drop (p + 4)) := by
  obtain ⟨m', h1, -, -, h3⟩ := (Swab.unaligned_correct.2.1 m p v h).2
  rw [h1]
  congr 1
  apply splice_of (bs := Spec.beBytes v) (by show p + 4 ≤ _; exact h)
  intro i
  rw [h3]
  show (if p ≤ i ∧ i < p + 4 then _ else _) = if p ≤ i ∧ i < p + 4 then _ else _
  split
  · rename_i hc
    rw [byteOf_extract _ _ (by omega)]
    rcases cases4 hc with e | e | e | e <;> subst e <;> simp [Spec.beBytes]
  · rfl

theorem setLe32_ok {m : List Byte} {p : Nat} (v : W32) (h : p + 4 ≤ m.length) :
    Swab.setLe32 m p v = some (m.take p ++ Spec.leBytes v ++ m.drop (p + 4)) := by
  obtain ⟨m', h1, -, -, h3⟩ := (Swab.unaligned_correct.2.1 m p v h).1
  rw [h1]
  congr 1
  apply splice_of (bs := Spec.leBytes v) (by show p + 4 ≤ _; exact h)
  intro i
  rw [h3]
  show (if p ≤ i ∧ i < p + 4 then _ else _) = if p ≤ i ∧ i < p + 4 then _ else _
  split
  · rename_i hc
    rw [byteOf_extract _ _ (by omega)]
    rcases cases4 hc with e | e | e | e <;> subst e <;> simp [Spec.leBytes]
  · rfl

/-- Writing out `k` words of the state. -/
theorem out_ok (set : List Byte → Nat → W32 → Option (List Byte)) (out : W32 → List Byte) (ho : ∀ v, (out v).length = 4)
    (hs : ∀ m p v, p + 4 ≤ m.length → set m p v = some (m.take p ++ out v ++ m.drop (p + 4))) (st : List W32) (hash : List Byte) (p k : Nat)
    (hk : k ≤ st.length) (hp : p + 4 * k ≤ hash.length) :
    forN k (fun count hash => do
      let v ← st[count]?
      set hash (p + 4 * count) v) hash = some (hash.take p ++ (st.take k).flatMap out ++ hash.drop (p + 4 * k)) := by
  induction k with
  | zero => simp [forN]
  | succ k ih =>
    rw [forN, ih (by omega) (by omega), Option.bind_some]
    have hg : st[k]? = some st[k] := List.getElem?_eq_getElem (by omega)
    have hfl : ∀ (l : List W32), (l.flatMap out).length = 4 * l.length := by
      intro l
      induction l with
      | nil => rfl
      | cons a l ihl => rw [List.flatMap_cons, List.length_append, ihl, ho, List.length_cons]; omega
    have hl : (hash.take p ++ (st.take k).flatMap out).length = p + 4 * k := by
      rw [List.length_append, hfl, List.length_take, List.length_take]; omega
    simp only [Option.bind_eq_bind]
    rw [hg, Option.bind_some, hs _ _ _ (by rw [List.length_append, hl, List.length_drop]; omega)]
    congr 1
    rw [List.take_append_of_le_length (by omega), List.take_of_length_le (by omega), List.drop_append, List.drop_of_length_le (by omega), List.nil_append, hl,
      List.drop_drop, List.take_succ, hg, List.flatMap_append]
    simp only [Option.toList, List.flatMap_cons, List.flatMap_nil, List.append_nil, List.append_assoc]
    congr 4
    omega

/-! ### MD5 streaming -/

/-- The MD5 block function is the compression function on a 64-byte block. -/
def FoldsOne (n : Nat) (comp : List W32 → List Byte → List W32) (func : List W32 → List Byte → Option (List W32)) : Prop :=
  (∀ st blk, st.length = n → (comp st blk).length = n) ∧ ∀ st blk, st.length = n → blk.length = 64 → func st blk = some (comp st blk)

theorem md5Loop_ok {n : Nat} {comp : List W32 → List Byte → List W32} {func : List W32 → List Byte → Option (List W32)} (hf : FoldsOne n comp func)
    (data : List Byte) : ∀ (fuel : Nat) (st : List W32) (buf : List Byte) (p : Nat), st.length = n → buf.length = 64 → p ≤ data.length → data.length - p < fuel →
      ∃ buf', md5Loop func fuel st buf data p (data.length - p) =
        some ((blocks (data.drop p)).foldl comp st, buf', p + (data.length - p) / 64 * 64, (data.length - p) % 64) ∧ buf'.length = 64 := by
  intro fuel
  induction fuel with
  | zero => intro _ _ _ _ _ _ h; omega
  | succ fuel ih =>
    intro st buf p hst hb hp hfu
    rw [md5Loop]
    by_cases hc : 64 ≤ data.length - p
    · rw [if_pos hc]
      have hb' : (buf.take 0 ++ (data.drop p).take 64 ++ buf.drop (0 + 64)).length = 64 := by
        simp only [List.length_append, List.length_take, List.length_drop]; omega
      have e0 : buf.take 0 ++ (data.drop p).take 64 ++ buf.drop (0 + 64) = (data.drop p).take 64 := by
        rw [List.take_zero, List.nil_append, List.drop_of_length_le (l := buf) (by omega), List.append_nil]
      rw [e0] at hb'
      simp only [Option.bind_eq_bind]
      rw [copy_some (by omega) (by omega), Option.bind_some, e0, hf.2 _ _ hst hb', Option.bind_some]
      obtain ⟨buf', h1, h2⟩ := ih (comp st ((data.drop p).take 64)) ((data.drop p).take 64) (p + 64) (hf.1 _ _ hst) hb' (by omega) (by omega)
      refine ⟨buf', ?_, h2⟩
      rw [show data.length - p - 64 = data.length - (p + 64) by omega, h1]
      have eb : blocks (data.drop p) = (data.drop p).take 64 :: blocks (data.drop (p + 64)) := by
        conv => lhs; rw [← List.take_append_drop 64 (data.drop p)]
        rw [blocks_append _ _ (by omega), blocks_one _ hb', List.drop_drop]
        rfl
      rw [eb, List.foldl_cons]
      congr 4 <;> omega
    · rw [if_neg hc]
      refine ⟨buf, ?_, hb⟩
      rw [blocks_short _ (by rw [List.length_drop]; omega)]
      have e1 : (data.length - p) / 64 * 64 = 0 := by omega
      have e2 : (data.length - p) % 64 = data.length - p := by omega
      rw [e1, e2]
      rfl

theorem md5Update_inv {n : Nat} {comp : List W32 → List Byte → List W32} {func : List W32 → List Byte → Option (List W32)} (hf : FoldsOne n comp func)
    {iv : List W32} (hiv : iv.length = n) {ctx : Ctx} {msg data : List Byte} (hi : Inv comp iv ctx msg) :
    ∃ ctx', md5UpdateWith func ctx data data.length = some ctx' ∧ Inv comp iv ctx' (msg ++ data) := by
  obtain ⟨pre, rest, hm, hpre, hrest, hst, hbuf, hcnt⟩ := hi.split
  have hcount := count_add (data := data) hi.count
  have hbl := hi.len
  have hstn : ctx.state.length = n := by rw [hst]; exact foldl_length hf.1 _ _ hiv
  unfold md5UpdateWith
  dsimp only
  rw [hcnt, hcount, show 64 - (64 - rest.length) = rest.length by omega]
  by_cases hc : data.length < 64 - rest.length
  · rw [if_pos hc]
    simp only [Option.bind_eq_bind]
    rw [copy_some (by omega) (by omega), Option.bind_some, List.drop_zero, List.take_of_length_le (Nat.le_refl _), hbuf]
    refine ⟨_, rfl, Inv.mk' (pre := pre) (rest := rest ++ data) ?_ hpre (by rw [List.length_append]; omega) hst ?_ ?_ rfl⟩
    · rw [hm, List.append_assoc]
    · simp; omega
    · rw [List.take_append_of_le_length (Nat.le_refl _), List.take_of_length_le (Nat.le_refl _)]
  · rw [if_neg hc]
    have htl : (data.take (64 - rest.length)).length = 64 - rest.length := by rw [List.length_take]; omega
    have hfull := fill_full (fill := data.take (64 - rest.length)) hbl hbuf (by omega)
    rw [htl] at hfull
    have hrl : (rest ++ data.take (64 - rest.length)).length = 64 := by rw [List.length_append]; omega
    simp only [Option.bind_eq_bind]
    rw [copy_some (by omega) (by omega), Option.bind_some, List.drop_zero, hfull, hf.2 _ _ hstn hrl, Option.bind_some]
    obtain ⟨buf', h1, h2⟩ := md5Loop_ok hf data (data.length + 1) (comp ctx.state (rest ++ data.take (64 - rest.length))) (rest ++ data.take (64 - rest.length))
      (64 - rest.length) (hf.1 _ _ hstn) hrl (by omega) (by omega)
    rw [h1, Option.bind_some]
    dsimp only
    generalize hq : 64 - rest.length + (data.length - (64 - rest.length)) / 64 * 64 = q
    have hq1 : q ≤ data.length := by omega
    have hq2 : (data.length - (64 - rest.length)) % 64 = data.length - q := by omega
    have htq : (data.drop q).take (data.length - q) = data.drop q := List.take_of_length_le (by rw [List.length_drop]; omega)
    rw [copy_some (by omega) (by omega), Option.bind_some, hq2, htq, List.take_zero, List.nil_append]
    refine ⟨_, rfl, Inv.mk' (pre := pre ++ rest ++ data.take q) (rest := data.drop q) ?_ ?_ ?_ ?_ ?_ ?_ rfl⟩
    · rw [hm, List.append_assoc _ (List.take _ data), List.take_append_drop]
    · rw [List.length_append, List.length_append, List.length_take]; omega
    · rw [List.length_drop]; omega
    · have e : data.take q = data.take (64 - rest.length) ++ (data.drop (64 - rest.length)).take (q - (64 - rest.length)) := by
        rw [show q = (64 - rest.length) + (q - (64 - rest.length)) by omega, List.take_add, Nat.add_sub_cancel_left]
      have e2 : blocks ((data.drop (64 - rest.length)).take (q - (64 - rest.length))) = blocks (data.drop (64 - rest.length)) := by
        rw [← blocks_whole (data.drop (64 - rest.length)), List.length_drop]
        congr 2
        omega
      rw [e, List.append_assoc, ← List.append_assoc rest, blocks_append _ _ hpre, blocks_append _ _ (by omega), blocks_one _ hrl, e2, List.foldl_append, List.foldl_append,
        ← hst]
      rfl
    · simp; omega
    · rw [List.take_append_of_le_length (Nat.le_refl _), List.take_of_length_le (Nat.le_refl _)]

theorem toNat_hi (n : Nat) : ((BitVec.ofNat 64 (n % W64) >>> 29).setWidth 32 : W32).toNat = (8 * n) % 2 ^ 64 / 2 ^ 32 := by
  rw [BitVec.toNat_setWidth, BitVec.toNat_ushiftRight, BitVec.toNat_ofNat, Nat.shiftRight_eq_div_pow]
  unfold W64
  omega

theorem toNat_lo (n : Nat) : ((BitVec.ofNat 64 (n % W64) <<< 3).setWidth 32 : W32).toNat = (8 * n) % 2 ^ 32 := by
  rw [BitVec.toNat_setWidth, toNat_bits]
  omega

theorem le64_words (n : Nat) : Spec.leBytes ((BitVec.ofNat 64 (n % W64) <<< 3).setWidth 32) ++ Spec.leBytes ((BitVec.ofNat 64 (n % W64) >>> 29).setWidth 32) = Spec.le64 (8 * n) := by
  have h1 : ∀ v : W32, Spec.leBytes v = [Swab.byteOf v.toNat 0, Swab.byteOf v.toNat 1, Swab.byteOf v.toNat 2, Swab.byteOf v.toNat 3] := by
    intro v
    rw [byteOf_extract _ _ (by omega), byteOf_extract _ _ (by omega), byteOf_extract _ _ (by omega), byteOf_extract _ _ (by omega)]
    rfl
  rw [h1, h1, toNat_lo, toNat_hi]
  have h2 : ∀ j, j < 4 → Swab.byteOf ((8 * n) % 2 ^ 64 / 2 ^ 32) j = Swab.byteOf (8 * n) (4 + j) := by
    intro j hj
    rw [← byteOf_mod (8 * n) 64 (4 + j) (by omega)]
    unfold Swab.byteOf
    rw [Nat.div_div_eq_div_mul, Nat.pow_add]
  rw [h2 0 (by omega), h2 1 (by omega), h2 2 (by omega), h2 3 (by omega), byteOf_mod _ _ _ (by omega), byteOf_mod _ _ _ (by omega), byteOf_mod _ _ _ (by omega),
    byteOf_mod _ _ _ (by omega)]
  rfl

theorem md5Len_ok {buf : List Byte} (h : buf.length = 64) (n : Nat) :
    (Swab.setLe32 buf (4 * 14) ((BitVec.ofNat 64 (n % W64) <<< 3).setWidth 32)).bind
      (fun b => Swab.setLe32 b (4 * 15) ((BitVec.ofNat 64 (n % W64) >>> 29).setWidth 32)) = some (buf.take 56 ++ Spec.le64 (8 * n)) := by
  rw [← le64_words]
  generalize ((BitVec.ofNat 64 (n % W64) <<< 3).setWidth 32 : W32) = v
  generalize ((BitVec.ofNat 64 (n % W64) >>> 29).setWidth 32 : W32) = v'
  have hl : ∀ v, (Spec.leBytes v).length = 4 := fun _ => rfl
  have hl1 : (buf.take 56 ++ Spec.leBytes v).length = 60 := by rw [List.length_append, hl, List.length_take]; omega
  rw [setLe32_ok _ (by omega), Option.bind_some]
  show Swab.setLe32 (buf.take 56 ++ Spec.leBytes v ++ buf.drop 60) 60 v' = _
  rw [setLe32_ok _ (by rw [List.length_append, hl1, List.length_drop]; omega)]
  rw [List.take_append_of_le_length (by omega), List.take_of_length_le (by omega), List.drop_of_length_le (by rw [List.length_append, hl1, List.length_drop]; omega),
    List.append_nil, List.append_assoc]

theorem md5Finalize_ok {n : Nat} {comp : List W32 → List Byte → List W32} {func : List W32 → List Byte → Option (List W32)} (hf : FoldsOne n comp func)
    {iv : List W32} (hiv : iv.length = n) {ctx : Ctx} {msg : List Byte} (hi : Inv comp iv ctx msg) :
    ∃ ctx', md5FinalizeWith func ctx = some ctx' ∧ ctx'.buffer.length = 64 ∧ ctx'.state = (blocks (pad Spec.le64 msg)).foldl comp iv := by
  obtain ⟨pre, rest, hm, hpre, hrest, hst, hbuf, hcnt⟩ := hi.split
  have hstn : ctx.state.length = n := by rw [hst]; exact foldl_length hf.1 _ _ hiv
  obtain ⟨b1, h1, h2, h3⟩ := mark_some hi.len hrest hbuf
  obtain ⟨hp1, hp2⟩ := pad_blocks le64_length hm hpre hrest
  unfold md5FinalizeWith
  simp only [Option.bind_eq_bind, hcnt]
  rw [h1, Option.bind_some]
  have hlen : ∀ (b : List Byte) (g : List Byte → Option Ctx), b.length = 64 →
      ((Swab.setLe32 b (4 * 14) ((BitVec.ofNat 64 ctx.count <<< 3).setWidth 32)).bind fun b => (Swab.setLe32 b (4 * 15) ((BitVec.ofNat 64 ctx.count >>> 29).setWidth 32)).bind g) =
        g (b.take 56 ++ Spec.le64 (8 * msg.length)) := by
    intro b g hb
    rw [hi.count, ← Option.bind_assoc, md5Len_ok hb]
    rfl
  by_cases hc : rest.length < 56
  · have e : md5Close func ctx.state b1 (rest.length + 1) (56 - ((rest.length : Int) + 1)) = some (ctx.state, b1, rest.length + 1, 56 - ((rest.length : Int) + 1)) := by
      unfold md5Close
      rw [if_neg (by omega)]
    rw [e, Option.bind_some]
    dsimp only
    obtain ⟨b2, h4, h5, h6⟩ := zero_some h2 (show rest.length + 1 ≤ 56 by omega) (by omega)
    rw [show (56 - ((rest.length : Int) + 1)).toNat = 56 - (rest.length + 1) by omega, h4, Option.bind_some, hlen _ _ h5, hf.2 _ _ hstn (by simp [le64_length, h5])]
    refine ⟨_, rfl, by simp [le64_length, h5], ?_⟩
    rw [hp1 hc, List.foldl_append, ← hst]
    show comp _ _ = comp _ _
    rw [h6, h3, show 56 - (rest.length + 1) = 55 - rest.length by omega]
  · obtain ⟨b2, h4, h5, h6⟩ := zero_some h2 (show rest.length + 1 ≤ 64 by omega) (by omega)
    have hb2 : b2 = rest ++ [0x80] ++ List.replicate (63 - rest.length) 0 := by
      rw [← List.take_of_length_le (i := 64) (l := b2) (by omega), h6, h3, show 64 - (rest.length + 1) = 63 - rest.length by omega]
    have e : md5Close func ctx.state b1 (rest.length + 1) (56 - ((rest.length : Int) + 1)) = some (comp ctx.state b2, b2, 0, 56) := by
      unfold md5Close
      rw [if_pos (by omega)]
      simp only [Option.bind_eq_bind]
      rw [show (56 - ((rest.length : Int) + 1) + 8).toNat = 64 - (rest.length + 1) by omega, h4, Option.bind_some, hf.2 _ _ hstn h5]
      rfl
    rw [e, Option.bind_some]
    dsimp only
    obtain ⟨b3, h7, h8, h9⟩ := zero_some h5 (show 0 ≤ 56 by omega) (by omega)
    rw [show (56 : Int).toNat = 56 - 0 from rfl, h7, Option.bind_some, hlen _ _ h8, hf.2 _ _ (hf.1 _ _ hstn) (by simp [le64_length, h8])]
    refine ⟨_, rfl, by simp [le64_length, h8], ?_⟩
    rw [hp2 (by omega), List.foldl_append, ← hst]
    show comp _ _ = comp (comp _ _) _
    rw [h9, hb2]
    rfl

end Bfdev.Digest

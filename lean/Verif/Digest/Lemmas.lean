import Verif.Digest.Spec
import Verif.Swab.Props
set_option linter.unusedSimpArgs false
/-!
The streaming layer: buffers, padding, blocks. Independent of the compression functions.
-/
namespace Bfdev.Digest
open Spec (blocks pad beWord leWord byte)

theorem blocks_append (a b : List Byte) (h : a.length % 64 = 0) : blocks (a ++ b) = blocks a ++ blocks b := by
  unfold blocks
  have hl : (a ++ b).length / 64 = a.length / 64 + b.length / 64 := by rw [List.length_append]; omega
  rw [hl, List.range_add, List.map_append, List.map_map]
  congr 1
  · apply List.map_congr_left
    intro i hi
    rw [List.mem_range] at hi
    rw [List.drop_append_of_le_length (by omega), List.take_append_of_le_length (by rw [List.length_drop]; omega)]
  · apply List.map_congr_left
    intro i hi
    show List.take 64 (List.drop (64 * (a.length / 64 + i)) (a ++ b)) = _
    have e : 64 * (a.length / 64 + i) = a.length + 64 * i := by omega
    rw [e, List.drop_append]
    rw [List.drop_of_length_le (by omega), List.nil_append]
    congr 2
    omega

theorem blocks_short (a : List Byte) (h : a.length < 64) : blocks a = [] := by
  unfold blocks
  rw [Nat.div_eq_of_lt h]
  rfl

theorem blocks_one (a : List Byte) (h : a.length = 64) : blocks a = [a] := by
  unfold blocks
  rw [h]
  show [List.take 64 (List.drop (64 * 0) a)] = [a]
  simp [← h]

/-- Whole blocks of the message compressed, the rest in the buffer. -/
structure Inv (comp : List W32 → List Byte → List W32) (iv : List W32) (ctx : Ctx) (msg : List Byte) : Prop where
  state : ctx.state = (blocks msg).foldl comp iv
  len : ctx.buffer.length = 64
  rest : ctx.buffer.take (msg.length % 64) = msg.drop (msg.length / 64 * 64)
  count : ctx.count = msg.length % W64

/-- The SHA block function does what folding the compression function does. -/
def Folds (n : Nat) (comp : List W32 → List Byte → List W32) (func : List W32 → List Byte → Nat → Nat → Option (List W32)) : Prop :=
  (∀ st blk, st.length = n → (comp st blk).length = n) ∧
  ∀ st d p k, st.length = n → p + 64 * k ≤ d.length → func st d p k = some ((blocks ((d.drop p).take (64 * k))).foldl comp st)

theorem foldl_length {n : Nat} {comp : List W32 → List Byte → List W32} (h : ∀ st blk, st.length = n → (comp st blk).length = n)
    (bs : List (List Byte)) (st : List W32) (hst : st.length = n) : (bs.foldl comp st).length = n := by
  induction bs generalizing st with
  | nil => exact hst
  | cons b bs ih => exact ih _ (h _ _ hst)

/-- A message is its whole blocks and the rest. -/
theorem msg_split (msg : List Byte) : msg = msg.take (msg.length / 64 * 64) ++ msg.drop (msg.length / 64 * 64) := (List.take_append_drop _ _).symm

theorem whole_len (msg : List Byte) : (msg.take (msg.length / 64 * 64)).length = msg.length / 64 * 64 := by
  rw [List.length_take]; omega

theorem blocks_whole (msg : List Byte) : blocks (msg.take (msg.length / 64 * 64)) = blocks msg := by
  conv => rhs; rw [msg_split msg]
  rw [blocks_append _ _ (by rw [whole_len]; omega), blocks_short (msg.drop _) (by rw [List.length_drop]; omega), List.append_nil]

theorem mod64 (n : Nat) : n % W64 % 64 = n % 64 := by unfold W64; omega

theorem copy_some {dst : List Byte} {dp : Nat} {src : List Byte} {sp len : Nat} (h1 : sp + len ≤ src.length) (h2 : dp + len ≤ dst.length) :
    copy dst dp src sp len = some (dst.take dp ++ (src.drop sp).take len ++ dst.drop (dp + len)) := by
  unfold copy
  have hl : ((src.drop sp).take len).length = len := by rw [List.length_take, List.length_drop]; omega
  rw [rd_eq_some h1, Option.bind_eq_bind, Option.bind_some, wr_eq_some (by rw [hl]; exact h2), hl]

/-- When the buffer's used part is `rest`, filling it up gives `rest ++ fill`. -/
theorem fill_full {buf rest fill : List Byte} (hb : buf.length = 64) (hr : buf.take rest.length = rest) (hf : rest.length + fill.length = 64) :
    buf.take rest.length ++ fill ++ buf.drop (rest.length + fill.length) = rest ++ fill := by
  rw [hr, hf, List.drop_of_length_le (by omega), List.append_nil]

/-- The invariant with the message cut into compressed blocks and buffered rest. -/
theorem Inv.mk' {comp : List W32 → List Byte → List W32} {iv st : List W32} {buf : List Byte} {c : Nat} {msg pre rest : List Byte} (hm : msg = pre ++ rest)
    (hp : pre.length % 64 = 0) (hr : rest.length < 64) (hs : st = (blocks pre).foldl comp iv) (hl : buf.length = 64) (hb : buf.take rest.length = rest)
    (hc : c = msg.length % W64) : Inv comp iv ⟨st, buf, c⟩ msg := by
  have e1 : msg.length / 64 * 64 = pre.length := by rw [hm, List.length_append]; omega
  have e2 : msg.length % 64 = rest.length := by rw [hm, List.length_append]; omega
  refine ⟨?_, hl, ?_, hc⟩
  · show st = _
    rw [hs, hm, blocks_append _ _ hp, blocks_short rest hr, List.append_nil]
  · show buf.take _ = _
    rw [e2, hb, e1, hm, List.drop_left]

/-- What an invariant says of the buffered rest. -/
theorem Inv.split {comp : List W32 → List Byte → List W32} {iv : List W32} {ctx : Ctx} {msg : List Byte} (h : Inv comp iv ctx msg) :
    ∃ pre rest, msg = pre ++ rest ∧ pre.length % 64 = 0 ∧ rest.length < 64 ∧ ctx.state = (blocks pre).foldl comp iv ∧ ctx.buffer.take rest.length = rest ∧
      ctx.count % 64 = rest.length := by
  refine ⟨_, _, msg_split msg, by rw [whole_len]; omega, by rw [List.length_drop]; omega, by rw [h.state, blocks_whole], ?_, ?_⟩
  · rw [← h.rest, List.length_take, Nat.min_eq_left (by rw [h.len]; omega)]
  · rw [h.count, mod64, List.length_drop]; omega

theorem count_add {c : Nat} {msg data : List Byte} (h : c = msg.length % W64) : w64 (c + data.length) = (msg ++ data).length % W64 := by
  rw [h, w64, List.length_append, Nat.mod_add_mod]

/-- Putting the last partial block into the buffer. -/
theorem tail_buf {buf : List Byte} {data : List Byte} {p k : Nat} (hb : buf.length = 64) (hk : k = data.length - p) (hd : k < 64) (hp : p ≤ data.length) :
    ∃ buf', shaTail buf 0 data p k = some buf' ∧ buf'.length = 64 ∧ buf'.take (data.drop p).length = data.drop p := by
  have ht : List.take k (List.drop p data) = data.drop p := List.take_of_length_le (by rw [List.length_drop]; omega)
  unfold shaTail
  by_cases h0 : k = 0
  · refine ⟨buf, by rw [if_neg (by simp [h0])], hb, ?_⟩
    rw [List.length_drop, ← hk, h0, List.take_zero, List.drop_of_length_le (by omega)]
  · rw [if_pos h0, copy_some (by omega) (by omega), ht]
    refine ⟨_, rfl, ?_, ?_⟩
    · simp; omega
    · rw [List.take_zero, List.nil_append, List.take_append_of_le_length (by omega), List.take_of_length_le (by omega)]

/-- What the first step of an update leaves: the position `p`, and the message up to there compressed. -/
theorem head_ok {n : Nat} {comp : List W32 → List Byte → List W32} {func : List W32 → List Byte → Nat → Nat → Option (List W32)} (hf : Folds n comp func)
    {ctx : Ctx} {iv : List W32} {pre rest data : List Byte} (hpre : pre.length % 64 = 0) (hrest : rest.length < 64) (hst : ctx.state = (blocks pre).foldl comp iv)
    (hstn : ctx.state.length = n) (hbl : ctx.buffer.length = 64) (hbuf : ctx.buffer.take rest.length = rest) (hc : 64 ≤ rest.length + data.length)
    (hd : data.length < 2 ^ 63) :
    ∃ st buf p, shaHead func ctx data data.length rest.length = some (st, buf, p, data.length - p) ∧ p ≤ data.length ∧ buf.length = 64 ∧ st.length = n ∧
      (pre ++ rest ++ data.take p).length % 64 = 0 ∧ st = (blocks (pre ++ rest ++ data.take p)).foldl comp iv := by
  unfold shaHead
  by_cases hr0 : rest.length = 0
  · have hrn : rest = [] := List.eq_nil_of_length_eq_zero hr0
    rw [if_neg (by simp [hr0])]
    refine ⟨_, _, 0, rfl, by omega, hbl, hstn, ?_, ?_⟩
    · simp [hrn, hpre]
    · simp [hrn, hst]
  · rw [if_pos hr0]
    have htl : (data.take (64 - rest.length)).length = 64 - rest.length := by rw [List.length_take]; omega
    have hfull := fill_full (fill := data.take (64 - rest.length)) hbl hbuf (by omega)
    rw [htl] at hfull
    have hrl : (rest ++ data.take (64 - rest.length)).length = 64 := by rw [List.length_append]; omega
    have hws : wsub data.length (64 - rest.length) = data.length - (64 - rest.length) := by unfold wsub W64; omega
    have hst2 : (comp ctx.state (rest ++ data.take (64 - rest.length))).length = n := hf.1 _ _ hstn
    refine ⟨comp ctx.state (rest ++ data.take (64 - rest.length)), rest ++ data.take (64 - rest.length), 64 - rest.length, ?_, by omega, hrl, hst2, ?_, ?_⟩
    · simp only [Option.bind_eq_bind]
      rw [copy_some (by omega) (by omega), Option.bind_some, List.drop_zero, hfull, hf.2 _ _ _ _ hstn (by omega), Option.bind_some, List.drop_zero,
        List.take_of_length_le (by omega : _ ≤ 64 * 1), blocks_one _ hrl, hws]
      rfl
    · rw [List.append_assoc, List.length_append, hrl]; omega
    · rw [List.append_assoc, blocks_append _ _ hpre, blocks_one _ hrl, List.foldl_append, ← hst]
      rfl

theorem shaUpdate_inv {n : Nat} {comp : List W32 → List Byte → List W32} {func : List W32 → List Byte → Nat → Nat → Option (List W32)} (hf : Folds n comp func)
    {iv : List W32} (hiv : iv.length = n) {ctx : Ctx} {msg data : List Byte} (hi : Inv comp iv ctx msg) (hd : data.length < 2 ^ 63) :
    ∃ ctx', shaUpdate func ctx data data.length = some ctx' ∧ Inv comp iv ctx' (msg ++ data) := by
  obtain ⟨pre, rest, hm, hpre, hrest, hst, hbuf, hcnt⟩ := hi.split
  have hcount := count_add (data := data) hi.count
  have hbl := hi.len
  have hstn : ctx.state.length = n := by rw [hst]; exact foldl_length hf.1 _ _ hiv
  have hw : w64 (rest.length + data.length) = rest.length + data.length := by unfold w64 W64; omega
  unfold shaUpdate
  dsimp only
  rw [hcnt, hw, hcount]
  by_cases hc : 64 ≤ rest.length + data.length
  · rw [if_pos hc]
    obtain ⟨st, buf, p, h1, h2, h3, h4, h5, h6⟩ := head_ok hf hpre hrest hst hstn hbl hbuf hc hd
    have hwhole : ∃ st', shaWhole func st data p ((data.length - p) / 64) = some (st', p + (data.length - p) / 64 * 64) ∧
        st' = (blocks ((data.drop p).take (64 * ((data.length - p) / 64)))).foldl comp st := by
      unfold shaWhole
      by_cases h0 : (data.length - p) / 64 = 0
      · refine ⟨st, by rw [if_neg (by simp [h0]), h0]; rfl, ?_⟩
        rw [h0, Nat.mul_zero, List.take_zero]
        rfl
      · refine ⟨_, ?_, rfl⟩
        rw [if_pos h0]
        simp only [Option.bind_eq_bind]
        rw [hf.2 _ _ _ _ h4 (by omega)]
        rfl
    obtain ⟨st', h7, h8⟩ := hwhole
    obtain ⟨buf', h9, h10, h11⟩ := tail_buf (data := data) (p := p + (data.length - p) / 64 * 64) (k := (data.length - p) % 64) h3 (by omega) (by omega) (by omega)
    refine ⟨⟨st', buf', (msg ++ data).length % W64⟩, ?_, ?_⟩
    · simp only [Option.bind_eq_bind]
      rw [h1, Option.bind_some]
      dsimp only
      rw [h7, Option.bind_some]
      dsimp only
      rw [h9]
      rfl
    refine Inv.mk' (pre := pre ++ rest ++ data.take p ++ (data.drop p).take (64 * ((data.length - p) / 64))) (rest := data.drop (p + (data.length - p) / 64 * 64)) ?_ ?_ ?_ ?_ h10 h11 rfl
    · rw [hm, ← List.drop_drop, Nat.mul_comm 64, List.append_assoc _ (List.take _ (List.drop _ _)), List.take_append_drop, List.append_assoc _ (List.take _ data),
        List.take_append_drop]
    · rw [List.length_append, List.length_take, List.length_drop]; omega
    · rw [List.length_drop]; omega
    · rw [blocks_append (pre ++ rest ++ _) _ h5, List.foldl_append, h8, ← h6]
  · rw [if_neg hc]
    unfold shaTail
    by_cases h0 : data.length = 0
    · have hdn : data = [] := List.eq_nil_of_length_eq_zero h0
      rw [if_neg (by simp [h0])]
      refine ⟨_, rfl, Inv.mk' (pre := pre) (rest := rest) ?_ hpre hrest hst hbl hbuf rfl⟩
      rw [hdn, List.append_nil, hm]
    · rw [if_pos h0, copy_some (by omega) (by omega), List.drop_zero, List.take_of_length_le (Nat.le_refl _), hbuf]
      refine ⟨_, rfl, Inv.mk' (pre := pre) (rest := rest ++ data) ?_ hpre (by rw [List.length_append]; omega) hst ?_ ?_ rfl⟩
      · rw [hm, List.append_assoc]
      · simp; omega
      · rw [List.take_append_of_le_length (Nat.le_refl _), List.take_of_length_le (Nat.le_refl _)]

/-! ### Padding -/

theorem byteOf_mod (n k j : Nat) (hj : 8 * j + 8 ≤ k) : Swab.byteOf (n % 2 ^ k) j = Swab.byteOf n j := by
  apply BitVec.eq_of_getLsbD_eq
  intro i hi
  rw [Swab.byteOf_bit _ _ _ hi, Swab.byteOf_bit _ _ _ hi, Nat.testBit_mod_two_pow]
  simp only [show 8 * j + i < k by omega, decide_true, Bool.true_and]

theorem toNat_bits (n : Nat) : (BitVec.ofNat 64 (n % W64) <<< 3).toNat = (8 * n) % 2 ^ 64 := by
  rw [BitVec.toNat_shiftLeft, BitVec.toNat_ofNat, Nat.shiftLeft_eq]
  unfold W64
  omega

theorem setBe64_last {buf : List Byte} (h : buf.length = 64) (n : Nat) :
    Swab.setBe64 buf 56 (BitVec.ofNat 64 (n % W64) <<< 3) = some (buf.take 56 ++ Spec.be64 (8 * n)) := by
  obtain ⟨m', h1, -, -, h2⟩ := (Swab.unaligned_correct.2.2 buf 56 (BitVec.ofNat 64 (n % W64) <<< 3) (by omega)).2
  rw [h1]
  congr 1
  apply List.ext_getElem?
  intro i
  rw [h2, List.getElem?_append, List.length_take, Nat.min_eq_left (by omega)]
  by_cases h3 : i < 56
  · rw [if_neg (by omega), if_pos h3, List.getElem?_take, if_pos h3]
  · rw [if_neg h3]
    by_cases h4 : i < 56 + 8
    · rw [if_pos (by omega)]
      unfold Spec.be64
      rw [List.getElem?_map, List.getElem?_range (by omega), Option.map_some]
      show some (Swab.byteOf (BitVec.ofNat 64 (n % W64) <<< 3).toNat _) = some (Swab.byteOf (8 * n) _)
      rw [toNat_bits, byteOf_mod _ _ _ (by omega)]
    · rw [if_neg (by omega), List.getElem?_eq_none (by omega), List.getElem?_eq_none (by simp [Spec.be64]; omega)]

theorem mark_some {buf rest : List Byte} (hb : buf.length = 64) (hr : rest.length < 64) (h : buf.take rest.length = rest) :
    ∃ b, setIdx buf rest.length (0x80 : Byte) = some b ∧ b.length = 64 ∧ b.take (rest.length + 1) = rest ++ [0x80] := by
  refine ⟨_, setIdx_some _ (by omega), by rw [List.length_set]; exact hb, ?_⟩
  rw [List.take_succ, List.take_set_of_le (Nat.le_refl _), h, List.getElem?_set_self (by omega)]
  rfl

theorem zero_some {buf : List Byte} {k e : Nat} (hb : buf.length = 64) (hk : k ≤ e) (he : e ≤ 64) :
    ∃ b, zero buf k (e - k) = some b ∧ b.length = 64 ∧ b.take e = buf.take k ++ List.replicate (e - k) 0 := by
  have hl : (List.replicate (e - k) (0 : Byte)).length = e - k := List.length_replicate
  refine ⟨_, wr_eq_some (by rw [hl]; omega), by rw [splice_length _ _ _ (by rw [hl]; omega)]; exact hb, ?_⟩
  rw [List.take_append_of_le_length (by simp; omega), List.take_of_length_le (by simp; omega)]

/-- The last block or blocks of the padded message. -/
theorem pad_blocks {len64 : Nat → List Byte} (hl : ∀ n, (len64 n).length = 8) {msg pre rest : List Byte} (hm : msg = pre ++ rest) (hp : pre.length % 64 = 0)
    (hr : rest.length < 64) :
    (rest.length < 56 → blocks (pad len64 msg) = blocks pre ++ [rest ++ [0x80] ++ List.replicate (55 - rest.length) 0 ++ len64 (8 * msg.length)]) ∧
    (56 ≤ rest.length → blocks (pad len64 msg) = blocks pre ++ [rest ++ [0x80] ++ List.replicate (63 - rest.length) 0, List.replicate 56 0 ++ len64 (8 * msg.length)]) := by
  have e2 : msg.length % 64 = rest.length := by rw [hm, List.length_append]; omega
  unfold pad
  rw [e2]
  have hl' := hl (8 * msg.length)
  generalize len64 (8 * msg.length) = tl at hl' ⊢
  constructor
  · intro h
    have e : (119 - rest.length) % 64 = 55 - rest.length := by omega
    rw [e]
    conv => lhs; rw [hm]
    have hl1 : (rest ++ ([0x80] ++ (List.replicate (55 - rest.length) 0 ++ tl))).length = 64 := by
      simp only [List.length_append, List.length_replicate, hl', List.length_cons, List.length_nil]; omega
    rw [List.append_assoc, List.append_assoc, List.append_assoc, blocks_append _ _ hp, blocks_one _ hl1]
    simp only [List.append_assoc]
  · intro h
    have e : (119 - rest.length) % 64 = (63 - rest.length) + 56 := by omega
    rw [e, ← List.replicate_append_replicate]
    have e3 : msg ++ [0x80#8] ++ (List.replicate (63 - rest.length) 0#8 ++ List.replicate 56 0#8) ++ tl =
        pre ++ ((rest ++ [0x80#8] ++ List.replicate (63 - rest.length) 0#8) ++ (List.replicate 56 0#8 ++ tl)) := by
      simp only [hm, List.append_assoc]
    show blocks (msg ++ [0x80#8] ++ (List.replicate (63 - rest.length) 0#8 ++ List.replicate 56 0#8) ++ tl) = _
    have hl1 : (rest ++ [0x80#8] ++ List.replicate (63 - rest.length) 0#8).length = 64 := by
      simp only [List.length_append, List.length_replicate, List.length_cons, List.length_nil]; omega
    rw [e3, blocks_append _ _ hp, blocks_append _ _ (by omega), blocks_one _ hl1, blocks_one (List.replicate 56 0#8 ++ tl) (by simp only [List.length_append, List.length_replicate, hl'])]
    rfl

theorem be64_length (n : Nat) : (Spec.be64 n).length = 8 := by simp [Spec.be64]
theorem le64_length (n : Nat) : (Spec.le64 n).length = 8 := by simp [Spec.le64]

theorem shaFinalize_ok {n : Nat} {comp : List W32 → List Byte → List W32} {func : List W32 → List Byte → Nat → Nat → Option (List W32)} (hf : Folds n comp func)
    {iv : List W32} (hiv : iv.length = n) {ctx : Ctx} {msg : List Byte} (hi : Inv comp iv ctx msg) :
    ∃ ctx', shaFinalize func ctx = some ctx' ∧ ctx'.buffer.length = 64 ∧ ctx'.state = (blocks (pad Spec.be64 msg)).foldl comp iv := by
  obtain ⟨pre, rest, hm, hpre, hrest, hst, hbuf, hcnt⟩ := hi.split
  have hstn : ctx.state.length = n := by rw [hst]; exact foldl_length hf.1 _ _ hiv
  have hone : ∀ (st : List W32) (b : List Byte), st.length = n → b.length = 64 → func st b 0 1 = some (comp st b) := by
    intro st b h1 h2
    rw [hf.2 _ _ _ _ h1 (by omega), List.drop_zero, List.take_of_length_le (by omega), blocks_one _ h2]
    rfl
  obtain ⟨b1, h1, h2, h3⟩ := mark_some hi.len hrest hbuf
  obtain ⟨hp1, hp2⟩ := pad_blocks be64_length hm hpre hrest
  unfold shaFinalize
  simp only [Option.bind_eq_bind, hcnt]
  rw [h1, Option.bind_some]
  by_cases hc : rest.length < 56
  · have e : shaClose func ctx.state b1 (64 - 8) (rest.length + 1) = some (ctx.state, b1, rest.length + 1) := by
      unfold shaClose
      rw [if_neg (by omega)]
    rw [e, Option.bind_some]
    dsimp only
    obtain ⟨b2, h4, h5, h6⟩ := zero_some h2 (show rest.length + 1 ≤ 64 - 8 by omega) (by omega)
    rw [h4, Option.bind_some, show 64 - 8 = 56 from rfl, hi.count, setBe64_last h5, Option.bind_some, hone _ _ hstn (by simp [be64_length, h5])]
    refine ⟨_, rfl, by simp [be64_length, h5], ?_⟩
    rw [hp1 hc, List.foldl_append, ← hst]
    show comp _ _ = comp _ _
    rw [show (56 : Nat) = 64 - 8 from rfl, h6, h3, show 64 - 8 - (rest.length + 1) = 55 - rest.length by omega]
  · obtain ⟨b2, h4, h5, h6⟩ := zero_some h2 (show rest.length + 1 ≤ 64 by omega) (by omega)
    have hb2 : b2 = rest ++ [0x80] ++ List.replicate (63 - rest.length) 0 := by
      rw [← List.take_of_length_le (i := 64) (l := b2) (by omega), h6, h3, show 64 - (rest.length + 1) = 63 - rest.length by omega]
    have e : shaClose func ctx.state b1 (64 - 8) (rest.length + 1) = some (comp ctx.state b2, b2, 0) := by
      unfold shaClose
      rw [if_pos (by omega)]
      simp only [Option.bind_eq_bind]
      rw [h4, Option.bind_some, hone _ _ hstn h5]
      rfl
    rw [e, Option.bind_some]
    dsimp only
    obtain ⟨b3, h7, h8, h9⟩ := zero_some h5 (show 0 ≤ 56 by omega) (by omega)
    rw [show 64 - 8 = 56 from rfl, h7, Option.bind_some, hi.count, setBe64_last h8, Option.bind_some, hone _ _ (hf.1 _ _ hstn) (by simp [be64_length, h8])]
    refine ⟨_, rfl, by simp [be64_length, h8], ?_⟩
    rw [hp2 (by omega), List.foldl_append, ← hst]
    show comp _ _ = comp (comp _ _) _
    rw [h9, hb2]
    rfl

end Bfdev.Digest

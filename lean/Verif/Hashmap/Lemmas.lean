import Verif.Hashmap.Spec
import Verif.Hlist.Props
import Verif.Scan.Props
import Verif.Jhash.Props
/-!
Lemmas on bucket arrays.
-/
namespace Bfdev.Hashmap
open Bfdev.Dlist (Addr Heap)
open Bfdev.Hlist (Chain IsChain World Step step_sound_partial)

/-- The chains of a bucket array. -/
def rows (p : Nat) : List (List Addr) → List (List Addr)
  | [] => []
  | B :: Bs => (p :: B) :: rows (p + 8) Bs

theorem rows_append (p : Nat) (A C : List (List Addr)) : rows p (A ++ C) = rows p A ++ rows (p + 8 * A.length) C := by
  induction A generalizing p with
  | nil => simp [rows]
  | cons B A ih =>
    simp only [List.cons_append, rows, ih, List.length_cons]
    congr 3
    omega

/-- One bucket taken out of the array. -/
theorem rows_split (p : Nat) (Bs : List (List Addr)) (i : Nat) (hi : i < Bs.length) :
    ∃ R, (rows p Bs).Perm (((p + 8 * i) :: Bs[i]) :: R) ∧ ∀ B', (rows p (Bs.set i B')).Perm (((p + 8 * i) :: B') :: R) := by
  refine ⟨rows p (Bs.take i) ++ rows (p + 8 * (i + 1)) (Bs.drop (i + 1)), ?_, fun B' => ?_⟩
  · have e : Bs = Bs.take i ++ Bs[i] :: Bs.drop (i + 1) := by rw [List.getElem_cons_drop, List.take_append_drop]
    have hl : (Bs.take i).length = i := by rw [List.length_take]; omega
    rw [show rows p Bs = rows p (Bs.take i ++ Bs[i] :: Bs.drop (i + 1)) by rw [← e], rows_append, rows, hl]
    exact List.perm_middle
  · rw [List.set_eq_take_append_cons_drop, if_pos hi]
    have hl : (Bs.take i).length = i := by rw [List.length_take]; omega
    rw [rows_append, rows, hl]
    exact List.perm_middle

theorem mem_rows_flatten {p : Nat} {Bs : List (List Addr)} {a : Nat} :
    a ∈ (rows p Bs).flatten ↔ a ∈ Bs.flatten ∨ ∃ i, i < Bs.length ∧ a = p + 8 * i := by
  induction Bs generalizing p with
  | nil => simp [rows]
  | cons B Bs ih =>
    simp only [rows, List.flatten_cons, List.mem_append, List.mem_cons, ih, List.length_cons]
    constructor
    · rintro ((rfl | h) | h | ⟨i, h1, h2⟩)
      · exact Or.inr ⟨0, by omega, by omega⟩
      · exact Or.inl (Or.inl h)
      · exact Or.inl (Or.inr h)
      · exact Or.inr ⟨i + 1, by omega, by omega⟩
    · rintro ((h | h) | ⟨i, h1, h2⟩)
      · exact Or.inl (Or.inr h)
      · exact Or.inr (Or.inl h)
      · cases i with
        | zero => exact Or.inl (Or.inl (by omega))
        | succ i => exact Or.inr (Or.inr ⟨i, by omega, by omega⟩)

theorem world_split {s : Heap} {A B : List (List Addr)} (h : World s (A ++ B)) : World s A ∧ World s B := by
  have hn := h.nodup
  rw [List.flatten_append, List.nodup_append] at hn
  exact ⟨⟨fun c hc => h.chain c (by simp [hc]), hn.1⟩, ⟨fun c hc => h.chain c (by simp [hc]), hn.2.1⟩⟩

theorem chain_head {s : Heap} {a : Addr} {l : List Addr} (h : Chain s a l) : s.next a = l.headD 0 := by
  cases l with
  | nil => exact h
  | cons x l => exact h.1

/-- Searching a chain. -/
theorem search_ok {s : Heap} {a : Addr} {l : List Addr} (h : Chain s a l) (hit : Addr → Bool) (fuel : Nat) (hf : l.length < fuel) :
    search s hit fuel (s.next a) = some ((l.find? hit).getD 0) := by
  induction l generalizing a fuel with
  | nil =>
    obtain ⟨f, rfl⟩ : ∃ f, fuel = f + 1 := ⟨fuel - 1, by simp at hf; omega⟩
    have : s.next a = 0 := h
    simp [search, this]
  | cons x l ih =>
    obtain ⟨f, rfl⟩ : ∃ f, fuel = f + 1 := ⟨fuel - 1, by simp at hf; omega⟩
    obtain ⟨h1, h2, h3, h4⟩ := h
    rw [h1, search, if_neg h2, List.find?_cons]
    cases hx : hit x with
    | true => simp
    | false => simp only [Bool.false_eq_true, if_false]; exact ih h4 f (by simp at hf; omega)

/-- The bucket of a hash value. -/
def slot (cap : Nat) (h : BitVec 64) : Nat := (Bloom.hashtblIndex (BitVec.ofNat 64 cap) h).getD 0

theorem ilog2_pow (b : Nat) (h : b ≤ 63) : Scan.ilog2Dynamic (BitVec.ofNat 64 (2 ^ b)) = some b := by
  obtain ⟨k, h1, -, -, h2, -⟩ := Scan.ilog2_correct (BitVec.ofNat 64 (2 ^ b))
  have hb : 2 ^ b < 2 ^ 64 := Nat.pow_lt_pow_right (by decide) (by omega)
  have e : (BitVec.ofNat 64 (2 ^ b)).toNat = 2 ^ b := by rw [BitVec.toNat_ofNat, Nat.mod_eq_of_lt hb]
  rw [e] at h2
  obtain ⟨h3, h4⟩ := h2 (Nat.pos_of_ne_zero (by simp))
  have h3 := (Nat.pow_le_pow_iff_right (a := 2) (by decide)).1 h3
  have h4 := (Nat.pow_lt_pow_iff_right (a := 2) (by decide)).1 h4
  rw [h1, show k = b by omega]

theorem slot_ok (b : Nat) (h1 : 1 ≤ b) (h2 : b ≤ 63) (h : BitVec 64) :
    Bloom.hashtblIndex (BitVec.ofNat 64 (2 ^ b)) h = some (slot (2 ^ b) h) ∧ slot (2 ^ b) h < 2 ^ b := by
  obtain ⟨v, h3, h4⟩ := Jhash.hash64_range_partial h b h1 (by omega)
  have : Bloom.hashtblIndex (BitVec.ofNat 64 (2 ^ b)) h = some v.toNat := by
    rw [Bloom.hashtblIndex, ilog2_pow b h2, Option.bind_some, h3, Option.map_some]
  rw [slot, this]
  exact ⟨rfl, h4⟩

theorem masked_ok (b : Nat) (h2 : b ≤ 63) (p i : Nat) (hi : i < 2 ^ b) : masked p (2 ^ b) i = some (p + 8 * i) := by
  rw [masked, mask, ilog2_pow b h2]
  simp only [Option.map_some, Nat.and_two_pow_sub_one_eq_mod, Nat.mod_eq_of_lt hi]

/-- Put a node at the front of its bucket. -/
def push (f : Addr → BitVec 64) (cap : Nat) (Ns : List (List Addr)) (n : Addr) : List (List Addr) :=
  Ns.set (slot cap (f n)) (n :: (Ns[slot cap (f n)]?.getD []))

theorem push_length (f : Addr → BitVec 64) (cap : Nat) (Ns : List (List Addr)) (n : Addr) : (push f cap Ns n).length = Ns.length := by simp [push]

theorem foldl_push_length (f : Addr → BitVec 64) (cap : Nat) (Ns : List (List Addr)) (l : List Addr) : (l.foldl (push f cap) Ns).length = Ns.length := by
  induction l generalizing Ns with
  | nil => rfl
  | cons x l ih => rw [List.foldl_cons, ih, push_length]

theorem flatten_split (Ns : List (List Addr)) (i : Nat) (hi : i < Ns.length) :
    ∃ R, (Ns.flatten).Perm (Ns[i] ++ R) ∧ ∀ B', ((Ns.set i B').flatten).Perm (B' ++ R) := by
  refine ⟨(Ns.take i).flatten ++ (Ns.drop (i + 1)).flatten, ?_, fun B' => ?_⟩
  · have e : Ns = Ns.take i ++ Ns[i] :: Ns.drop (i + 1) := by rw [List.getElem_cons_drop, List.take_append_drop]
    rw [show Ns.flatten = (Ns.take i ++ Ns[i] :: Ns.drop (i + 1)).flatten by rw [← e], List.flatten_append, List.flatten_cons]
    exact List.perm_append_comm_assoc ..
  · rw [List.set_eq_take_append_cons_drop, if_pos hi, List.flatten_append, List.flatten_cons]
    exact List.perm_append_comm_assoc ..

theorem push_perm (f : Addr → BitVec 64) (b : Nat) (h1 : 1 ≤ b) (h2 : b ≤ 63) (Ns : List (List Addr)) (hl : Ns.length = 2 ^ b) (n : Addr) :
    (push f (2 ^ b) Ns n).flatten.Perm (n :: Ns.flatten) := by
  have hs := (slot_ok b h1 h2 (f n)).2
  have hi : slot (2 ^ b) (f n) < Ns.length := by omega
  obtain ⟨R, hp, hq⟩ := flatten_split Ns _ hi
  refine (hq _).trans ?_
  rw [List.getElem?_eq_getElem hi]
  exact (hp.symm).cons n

theorem foldl_push_perm (f : Addr → BitVec 64) (b : Nat) (h1 : 1 ≤ b) (h2 : b ≤ 63) (l : List Addr) : ∀ (Ns : List (List Addr)), Ns.length = 2 ^ b →
    (l.foldl (push f (2 ^ b)) Ns).flatten.Perm (l ++ Ns.flatten) := by
  induction l with
  | nil => intro Ns _; exact List.Perm.refl _
  | cons x l ih =>
    intro Ns hl
    rw [List.foldl_cons]
    refine (ih _ (by rw [push_length, hl])).trans ?_
    refine ((push_perm f b h1 h2 Ns hl x).append_left l).trans ?_
    exact List.perm_middle

/-- Every node is in the bucket its hash asks for. -/
def Placed (f : Addr → BitVec 64) (cap : Nat) (Bs : List (List Addr)) : Prop := ∀ (i : Nat) B, Bs[i]? = some B → ∀ n ∈ B, slot cap (f n) = i

theorem placed_push {f : Addr → BitVec 64} {cap : Nat} {Ns : List (List Addr)} (h : Placed f cap Ns) (n : Addr) : Placed f cap (push f cap Ns n) := by
  intro i B hB x hx
  rw [push, List.getElem?_set] at hB
  split at hB
  · next e =>
    split at hB
    · next hi =>
      simp only [Option.some.injEq] at hB
      rw [← hB, List.mem_cons] at hx
      rcases hx with rfl | hx
      · exact e
      · rw [List.getElem?_eq_getElem hi] at hx
        rw [h _ _ (List.getElem?_eq_getElem hi) x hx, e]
    · simp at hB
  · exact h i B hB x hx

theorem placed_foldl {f : Addr → BitVec 64} {cap : Nat} (l : List Addr) : ∀ {Ns : List (List Addr)}, Placed f cap Ns → Placed f cap (l.foldl (push f cap) Ns) := by
  induction l with
  | nil => intro Ns h; exact h
  | cons x l ih => intro Ns h; exact ih (placed_push h x)

/-- Adding a node to a bucket array. -/
theorem tblAdd_ok {s : Heap} {q b : Nat} (h1 : 1 ≤ b) (h2 : b ≤ 63) {Ns W : List (List Addr)} (hl : Ns.length = 2 ^ b) (hw : World s (rows q Ns ++ W))
    {n : Addr} (h0 : n ≠ 0) (hn : n ∉ (rows q Ns ++ W).flatten) (f : Addr → BitVec 64) :
    ∃ s', tblAdd s q (2 ^ b) n (f n) = some s' ∧ World s' (rows q (push f (2 ^ b) Ns n) ++ W) := by
  obtain ⟨e, hs⟩ := slot_ok b h1 h2 (f n)
  have hi : slot (2 ^ b) (f n) < Ns.length := by omega
  obtain ⟨R, hp, hq⟩ := rows_split q Ns _ hi
  have hpw : (rows q Ns ++ W).Perm (((q + 8 * slot (2 ^ b) (f n)) :: Ns[slot (2 ^ b) (f n)]) :: (R ++ W)) := hp.append_right W
  obtain ⟨s', e1, w1⟩ := step_sound_partial hw (Step.perm hpw (Step.headAdd h0 (fun h => hn (hpw.flatten.mem_iff.2 h))))
  refine ⟨s', ?_, ?_⟩
  · rw [tblAdd, e, Option.map_some]; exact e1
  · refine Hlist.world_perm ?_ w1
    rw [push, List.getElem?_eq_getElem hi]
    exact ((hq _).append_right W).symm

/-- Moving a bucket over. -/
theorem drain_ok {κ : Type} (ops : Ops κ) {q b : Nat} (h1 : 1 ≤ b) (h2 : b ≤ 63) {W : List (List Addr)} {hd : Addr} : ∀ (l : List Addr) (s : Heap) (Ns : List (List Addr)) (fuel : Nat),
    Ns.length = 2 ^ b → l.length < fuel → World s (rows q Ns ++ ((hd :: l) :: W)) →
    ∃ s', drain ops q (2 ^ b) fuel s (s.next hd) = some s' ∧ World s' (rows q (l.foldl (push ops.hashNode (2 ^ b)) Ns) ++ ([hd] :: W)) := by
  intro l
  induction l with
  | nil =>
    intro s Ns fuel hl hf hw
    obtain ⟨f, rfl⟩ : ∃ f, fuel = f + 1 := ⟨fuel - 1, by simp at hf; omega⟩
    have : s.next hd = 0 := (hw.chain [hd] (by simp)).2
    exact ⟨s, by simp [drain, this], hw⟩
  | cons x l ih =>
    intro s Ns fuel hl hf hw
    obtain ⟨f, rfl⟩ : ∃ f, fuel = f + 1 := ⟨fuel - 1, by simp at hf; omega⟩
    obtain ⟨h0, c1, c2, c3, c4⟩ := hw.chain (hd :: x :: l) (by simp)
    have hp : (rows q Ns ++ ((hd :: x :: l) :: W)).Perm ((hd :: [] ++ x :: l) :: (rows q Ns ++ W)) := List.perm_middle
    have hnd := (hp.flatten.nodup_iff).1 hw.nodup
    obtain ⟨s1, e1, w1⟩ := step_sound_partial hw (Step.perm hp Step.del)
    have w1' : World s1 (rows q Ns ++ ((hd :: l) :: W)) := Hlist.world_perm (List.perm_middle.symm) w1
    have hx : x ∉ (rows q Ns ++ ((hd :: l) :: W)).flatten := by
      intro hx
      have := (List.Perm.flatten (l₁ := rows q Ns ++ ((hd :: l) :: W)) List.perm_middle).mem_iff.1 hx
      revert this
      nds hnd
    obtain ⟨s2, e2, w2⟩ := tblAdd_ok h1 h2 hl w1' c2 hx ops.hashNode
    obtain ⟨s', e3, w3⟩ := ih s2 (push ops.hashNode (2 ^ b) Ns x) f (by rw [push_length, hl]) (by simp at hf; omega) w2
    refine ⟨s', ?_, w3⟩
    have e4 : s2.next hd = s.next x := by
      rw [chain_head (w2.chain (hd :: l) (by simp)).2, chain_head c4]
    have e1' : Hlist.del s x = some s1 := e1
    rw [c1, drain, if_neg c2]
    dsimp only
    rw [e1', Option.bind_some, e2, Option.bind_some, ← e4, e3]

/-- Initialising a bucket array. -/
theorem tblInit_ok {s : Heap} {W : List (List Addr)} (hw : World s W) (q n : Nat) (h0 : q ≠ 0) (hq : ∀ i, i < n → q + 8 * i ∉ W.flatten) :
    ∃ s', tblInit s q n = some s' ∧ World s' (rows q (List.replicate n []) ++ W) := by
  rw [tblInit]
  refine forN_inv (P := fun i t => World t (rows q (List.replicate i []) ++ W)) n _ s hw (fun i hi t ht => ?_)
  have hn : q + 8 * i ∉ (rows q (List.replicate i []) ++ W).flatten := by
    rw [List.flatten_append, List.mem_append, mem_rows_flatten]
    rintro ((h | ⟨j, hj, e⟩) | h)
    · simp at h
    · rw [List.length_replicate] at hj; omega
    · exact hq i hi h
  have hz : q + 8 * i ≠ 0 := by omega
  obtain ⟨t', e1, w1⟩ := step_sound_partial ht (Step.headInit (h := q + 8 * i) hz hn)
  refine ⟨t', e1, Hlist.world_perm ?_ w1⟩
  rw [List.replicate_succ', rows_append, List.length_replicate, rows, rows, List.append_assoc]
  exact List.perm_middle.symm

/-- Moving all buckets over. -/
theorem move_ok {κ : Type} (ops : Ops κ) {q b ob : Nat} (h1 : 1 ≤ b) (h2 : b ≤ 63) (ho : ob ≤ 63) {p : Nat} {Bs : List (List Addr)} (hB : Bs.length = 2 ^ ob) (s : Heap)
    (fuel : Nat) (hf : ∀ B ∈ Bs, B.length < fuel) (hw : World s (rows q (List.replicate (2 ^ b) []) ++ rows p Bs)) :
    ∃ s', forN (2 ^ ob) (fun index s => (masked p (2 ^ ob) index).bind fun head => drain ops q (2 ^ b) fuel s (s.next head)) s = some s' ∧
      World s' (rows q (Bs.flatten.foldl (push ops.hashNode (2 ^ b)) (List.replicate (2 ^ b) []))) := by
  have key := forN_inv (P := fun i t => World t (rows q ((Bs.take i).flatten.foldl (push ops.hashNode (2 ^ b)) (List.replicate (2 ^ b) [])) ++
      rows p (List.replicate i [] ++ Bs.drop i))) (2 ^ ob) (fun index s => (masked p (2 ^ ob) index).bind fun head => drain ops q (2 ^ b) fuel s (s.next head)) s
    (by simpa using hw) (fun i hi t ht => ?_)
  · obtain ⟨s', e, w⟩ := key
    refine ⟨s', e, ?_⟩
    rw [List.take_of_length_le (by omega)] at w
    exact (world_split w).1
  · have hi' : i < Bs.length := by omega
    generalize hN : (Bs.take i).flatten.foldl (push ops.hashNode (2 ^ b)) (List.replicate (2 ^ b) []) = Ns at ht
    have hl : Ns.length = 2 ^ b := by rw [← hN, foldl_push_length, List.length_replicate]
    rw [List.drop_eq_getElem_cons hi', rows_append, List.length_replicate, rows] at ht
    have hp : (rows q Ns ++ (rows p (List.replicate i []) ++ ((p + 8 * i) :: Bs[i]) :: rows (p + 8 * i + 8) (Bs.drop (i + 1)))).Perm
        (rows q Ns ++ (((p + 8 * i) :: Bs[i]) :: (rows p (List.replicate i []) ++ rows (p + 8 * i + 8) (Bs.drop (i + 1))))) :=
      List.Perm.append_left _ List.perm_middle
    obtain ⟨t', e, w⟩ := drain_ok ops h1 h2 Bs[i] t Ns fuel hl (hf _ (List.getElem_mem hi')) (Hlist.world_perm hp ht)
    refine ⟨t', ?_, ?_⟩
    · rw [masked_ok ob ho p i hi, Option.bind_some, e]
    · rw [List.take_succ, List.getElem?_eq_getElem hi', Option.toList_some, List.flatten_append, List.foldl_append, hN, List.flatten_singleton,
        List.replicate_succ', List.append_assoc, rows_append, List.length_replicate]
      exact Hlist.world_perm (List.Perm.append_left _ List.perm_middle.symm) w

end Bfdev.Hashmap

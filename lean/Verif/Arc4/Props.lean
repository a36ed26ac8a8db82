import Verif.Arc4.Model

/-!
# ARC4: properties (C58)
-/

namespace Bfdev.Arc4

/-! ## Textbook RC4 -/

/-- Exchange two entries. -/
def swap (s : Byte → Byte) (i j : Byte) : Byte → Byte := fun k => if k = i then s j else if k = j then s i else s k

/-- Key schedule: start from the identity; for `i = 0 … 255`, `j := j + S[i] + K[i mod |K|]` and swap `S[i]`, `S[j]`. -/
def ksa (key : List Byte) : Byte → Byte :=
  ((List.range 256).foldl (fun (s : (Byte → Byte) × Byte) i =>
    let j := s.2 + s.1 (BitVec.ofNat 8 i) + key.getD (i % key.length) 0
    (swap s.1 (BitVec.ofNat 8 i) j, j)) (fun k => k, 0)).1

/-- Key stream generation: `i := i + 1`, `j := j + S[i]`, swap `S[i]`, `S[j]`, output `S[S[i] + S[j]]`. -/
def keystream (s : Byte → Byte) (i j : Byte) : Nat → List Byte
  | 0 => []
  | n + 1 =>
    let i := i + 1
    let j := j + s i
    let s := swap s i j
    s (s i + s j) :: keystream s i j n

/-- RC4 of a message. -/
def rc4 (key msg : List Byte) : List Byte := List.zipWith (· ^^^ ·) msg (keystream (ksa key) 0 0 msg.length)

/-! ## Proof -/

/-- The generator state after `n` outputs. -/
def advance (s : Byte → Byte) (i j : Byte) : Nat → (Byte → Byte) × Byte × Byte
  | 0 => (s, i, j)
  | n + 1 => advance (swap s (i + 1) (j + s (i + 1))) (i + 1) (j + s (i + 1)) n

theorem keystream_length (n : Nat) : ∀ (s : Byte → Byte) (i j : Byte), (keystream s i j n).length = n := by
  induction n with
  | zero => intros; rfl
  | succ n ih => intro s i j; simp only [keystream, List.length_cons, ih]

theorem keystream_add (m : Nat) : ∀ (n : Nat) (s : Byte → Byte) (i j : Byte),
    keystream s i j (m + n) = keystream s i j m ++ keystream (advance s i j m).1 (advance s i j m).2.1 (advance s i j m).2.2 n := by
  induction m with
  | zero => intro n s i j; simp [keystream, advance]
  | succ m ih =>
    intro n s i j
    rw [show m + 1 + n = (m + n) + 1 by omega]
    simp only [keystream, advance, List.cons_append, ih]

theorem advance_add (m : Nat) : ∀ (n : Nat) (s : Byte → Byte) (i j : Byte),
    advance s i j (m + n) = advance (advance s i j m).1 (advance s i j m).2.1 (advance s i j m).2.2 n := by
  induction m with
  | zero => intro n s i j; simp [advance]
  | succ m ih =>
    intro n s i j
    rw [show m + 1 + n = (m + n) + 1 by omega]
    simp only [advance, ih]

/-- Two stores make a swap. -/
theorem put_swap (s : Byte → Byte) (i j : Byte) : put (put s j (s i)) i (s j) = swap s i j := by
  funext k
  simp only [put, swap]

theorem put_swap' (s : Byte → Byte) (i j : Byte) : put (put s i (s j)) j (s i) = swap s i j := by
  funext k
  simp only [put, swap]
  by_cases h1 : k = j
  · by_cases h2 : k = i
    · subst h1; subst h2; simp
    · rw [if_pos h1, if_neg h2, if_pos h1]
  · simp [h1]

theorem swap_left (s : Byte → Byte) (i j : Byte) : swap s i j i = s j := by simp [swap]
theorem swap_right (s : Byte → Byte) (i j : Byte) : swap s i j j = s i := by
  simp only [swap]
  by_cases h : j = i
  · subst h; simp
  · simp [h]

/-- The pipelined loop follows the textbook generator. -/
theorem loop_eq : ∀ (ds : List Byte) (box : Byte → Byte) (i j : Byte), ds ≠ [] →
    loop box (i + 1) (j + box (i + 1)) (box (i + 1)) (box (j + box (i + 1))) ds =
      (⟨(advance box i j ds.length).1, (advance box i j ds.length).2.1 + 1, (advance box i j ds.length).2.2⟩,
        List.zipWith (· ^^^ ·) ds (keystream box i j ds.length))
  | [], _, _, _, h => absurd rfl h
  | [d], box, i, j, _ => by
    simp only [loop, put_swap, List.length_cons, List.length_nil, Nat.zero_add, keystream, advance, List.zipWith_cons_cons,
      List.zipWith_nil_right, swap_left, swap_right]
    rw [BitVec.add_comm (box (i + 1))]
  | d :: d2 :: ds, box, i, j, _ => by
    rw [loop]
    simp only [put_swap]
    rw [loop_eq (d2 :: ds) (swap box (i + 1) (j + box (i + 1))) (i + 1) (j + box (i + 1)) (by simp)]
    rw [show (d :: d2 :: ds).length = (d2 :: ds).length + 1 by simp]
    rw [keystream, advance]
    simp only [List.zipWith_cons_cons, swap_left, swap_right]
    rw [BitVec.add_comm (box (i + 1))]

/-- A context in step with the textbook generator. -/
theorem trans_eq (box : Byte → Byte) (i j : Byte) (ds : List Byte) :
    trans ⟨box, i + 1, j⟩ ds =
      (⟨(advance box i j ds.length).1, (advance box i j ds.length).2.1 + 1, (advance box i j ds.length).2.2⟩,
        List.zipWith (· ^^^ ·) ds (keystream box i j ds.length)) := by
  unfold trans
  by_cases h : ds.length = 0
  · rw [if_pos h, h]
    have := List.length_eq_zero_iff.1 h
    subst this
    rfl
  · rw [if_neg h]
    exact loop_eq ds box i j (by intro hh; subst hh; simp at h)

theorem fill_id : ∀ (n : Nat) (b : Byte → Byte) (k : Byte), k.toNat < n → n ≤ 256 →
    ((List.range n).foldl (fun b c => put b (BitVec.ofNat 8 c) (BitVec.ofNat 8 c)) b) k = k := by
  intro n
  induction n with
  | zero => intro b k h; omega
  | succ n ih =>
    intro b k hk hn
    rw [List.range_succ, List.foldl_append]
    simp only [List.foldl_cons, List.foldl_nil, put]
    split
    · rename_i h; exact h.symm
    · rename_i h
      apply ih _ _ _ (by omega)
      have : k.toNat ≠ n := by
        intro hh
        apply h
        apply BitVec.eq_of_toNat_eq
        rw [BitVec.toNat_ofNat]
        omega
      omega

theorem setkey_eq (ctx : Ctx) (key : List Byte) (h : key ≠ []) : setkey ctx key = ⟨ksa key, 0 + 1, 0⟩ := by
  unfold setkey
  rw [if_neg (by intro hh; exact h (List.length_eq_zero_iff.1 hh))]
  have h0 : (List.range 256).foldl (fun b c => put b (BitVec.ofNat 8 c) (BitVec.ofNat 8 c)) ctx.box = fun k => k := by
    funext k
    exact fill_id 256 ctx.box k k.isLt (Nat.le_refl _)
  simp only [h0]
  have hr : (round key) = fun (s : (Byte → Byte) × Byte) i =>
      (swap s.1 (BitVec.ofNat 8 i) (s.2 + s.1 (BitVec.ofNat 8 i) + key.getD (i % key.length) 0),
        s.2 + s.1 (BitVec.ofNat 8 i) + key.getD (i % key.length) 0) := by
    funext s i
    unfold round
    simp only
    rw [put_swap', show s.2 + (key.getD (i % key.length) 0 + s.1 (BitVec.ofNat 8 i)) =
      s.2 + s.1 (BitVec.ofNat 8 i) + key.getD (i % key.length) 0 by
        rw [BitVec.add_comm (key.getD _ _), ← BitVec.add_assoc]]
  rw [hr]
  rfl

theorem xor_twice : ∀ (a k : List Byte), a.length = k.length →
    List.zipWith (· ^^^ ·) (List.zipWith (· ^^^ ·) a k) k = a
  | [], [], _ => rfl
  | x :: a, y :: k, h => by
    simp only [List.zipWith_cons_cons, BitVec.xor_assoc, BitVec.xor_self, BitVec.xor_zero]
    rw [xor_twice a k (by simpa using h)]
  | [], _ :: _, h => by simp at h
  | _ :: _, [], h => by simp at h

/-! ## Theorems -/

/-- **C58.** After setting a non-empty key, whatever the context held before, transforming a message yields its textbook RC4
encryption. -/
theorem arc4_textbook (ctx : Ctx) (key msg : List Byte) (hk : key ≠ []) :
    (trans (setkey ctx key) msg).2 = rc4 key msg := by
  rw [setkey_eq ctx key hk, trans_eq]
  rfl

/-- **C58.** A second context with the same key undoes the encryption. -/
theorem arc4_decrypt (ctx ctx' : Ctx) (key msg : List Byte) (hk : key ≠ []) :
    (trans (setkey ctx' key) (trans (setkey ctx key) msg).2).2 = msg := by
  rw [arc4_textbook _ _ _ hk, arc4_textbook _ _ _ hk]
  have hl : (rc4 key msg).length = msg.length := by simp [rc4, keystream_length]
  unfold rc4 at *
  rw [hl, xor_twice _ _ (by rw [keystream_length])]

/-- **C58.** Transforming a message in two pieces equals transforming it at once, in output and in final context.
The pieces may be empty, and the context may be any at all: it need not come from a key. -/
theorem arc4_pieces (ctx : Ctx) (a b : List Byte) :
    trans ctx (a ++ b) = ((trans (trans ctx a).1 b).1, (trans ctx a).2 ++ (trans (trans ctx a).1 b).2) := by
  obtain ⟨box, proa, prob⟩ := ctx
  have hp : proa = (proa - 1) + 1 := by rw [BitVec.sub_add_cancel]
  generalize proa - 1 = i at hp
  subst hp
  simp only [trans_eq, List.length_append, keystream_add, advance_add]
  rw [List.zipWith_append (by rw [keystream_length])]

/-- **C58.** The same for any number of pieces. -/
theorem arc4_many (ctx : Ctx) (pieces : List (List Byte)) :
    (trans ctx pieces.flatten).2 = (pieces.foldl (fun (s : Ctx × List Byte) p => ((trans s.1 p).1, s.2 ++ (trans s.1 p).2)) (ctx, [])).2 ∧
    (trans ctx pieces.flatten).1 = (pieces.foldl (fun (s : Ctx × List Byte) p => ((trans s.1 p).1, s.2 ++ (trans s.1 p).2)) (ctx, [])).1 := by
  have key : ∀ (pieces : List (List Byte)) (s : Ctx × List Byte),
      pieces.foldl (fun (s : Ctx × List Byte) p => ((trans s.1 p).1, s.2 ++ (trans s.1 p).2)) s =
        ((trans s.1 pieces.flatten).1, s.2 ++ (trans s.1 pieces.flatten).2) := by
    intro pieces
    induction pieces with
    | nil => intro s; simp [trans]
    | cons p ps ih =>
      intro s
      rw [List.foldl_cons, ih, List.flatten_cons, arc4_pieces s.1 p ps.flatten]
      simp [List.append_assoc]
  rw [key]
  simp

/-- The box stays a permutation: a swap keeps it injective. -/
theorem arc4_box_injective (ctx : Ctx) (key msg : List Byte) (hk : key ≠ []) (a b : Byte)
    (h : (trans (setkey ctx key) msg).1.box a = (trans (setkey ctx key) msg).1.box b) : a = b := by
  have hs : ∀ (s : Byte → Byte) (i j : Byte), (∀ a b, s a = s b → a = b) → ∀ a b, swap s i j a = swap s i j b → a = b := by
    intro s i j hinj a b hab
    simp only [swap] at hab
    split at hab <;> split at hab <;> (try split at hab) <;> (try split at hab) <;> have := hinj _ _ hab <;> simp_all
  have hfold : ∀ (l : List Nat) (st : (Byte → Byte) × Byte), (∀ a b, st.1 a = st.1 b → a = b) →
      ∀ a b, (l.foldl (fun (s : (Byte → Byte) × Byte) i =>
        let j := s.2 + s.1 (BitVec.ofNat 8 i) + key.getD (i % key.length) 0
        (swap s.1 (BitVec.ofNat 8 i) j, j)) st).1 a = (l.foldl (fun (s : (Byte → Byte) × Byte) i =>
        let j := s.2 + s.1 (BitVec.ofNat 8 i) + key.getD (i % key.length) 0
        (swap s.1 (BitVec.ofNat 8 i) j, j)) st).1 b → a = b := by
    intro l
    induction l with
    | nil => intro st h; exact h
    | cons c l ih => intro st h; exact ih _ (hs _ _ _ h)
  have hadv : ∀ (n : Nat) (s : Byte → Byte) (i j : Byte), (∀ a b, s a = s b → a = b) →
      ∀ a b, (advance s i j n).1 a = (advance s i j n).1 b → a = b := by
    intro n
    induction n with
    | zero => intro s i j h; exact h
    | succ n ih => intro s i j h; exact ih _ _ _ (hs _ _ _ h)
  rw [setkey_eq ctx key hk, trans_eq] at h
  exact hadv _ _ _ _ (hfold _ _ (fun a b h => h)) a b h

/-- The published test vector: key "Key", message "Plaintext". -/
example : rc4 [0x4b, 0x65, 0x79] [0x50, 0x6c, 0x61, 0x69, 0x6e, 0x74, 0x65, 0x78, 0x74] =
    [0xbb, 0xf3, 0x16, 0xe8, 0xd9, 0x40, 0xaf, 0x0a, 0xd3] := by decide +kernel

end Bfdev.Arc4

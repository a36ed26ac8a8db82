import Verif.Arc4.Props
/-!
C140: what an ARC4 stream depends on.
-/
namespace Bfdev.Arc4

/-- **C140.** The context after a message depends on the length of the message only, and two messages sent from one context differ where their
cipher texts do. -/
theorem arc4_same_stream (ctx : Ctx) (a b : List Byte) (h : a.length = b.length) :
    (trans ctx a).1 = (trans ctx b).1 ∧ (trans ctx a).2.length = a.length ∧
      List.zipWith (· ^^^ ·) (trans ctx a).2 (trans ctx b).2 = List.zipWith (· ^^^ ·) a b := by
  obtain ⟨box, proa, prob⟩ := ctx
  have hp : proa = (proa - 1) + 1 := by rw [BitVec.sub_add_cancel]
  rw [hp, trans_eq, trans_eq, h]
  have hk := keystream_length b.length box (proa - 1) prob
  refine ⟨rfl, by rw [List.length_zipWith, hk, h, Nat.min_self], ?_⟩
  generalize keystream box (proa - 1) prob b.length = k at hk ⊢
  have key : ∀ (a b k : List Byte), a.length = b.length → k.length = b.length →
      List.zipWith (· ^^^ ·) (List.zipWith (· ^^^ ·) a k) (List.zipWith (· ^^^ ·) b k) = List.zipWith (· ^^^ ·) a b := by
    intro a
    induction a with
    | nil => intro b k _ _; rfl
    | cons x a ih =>
      intro b k h1 h2
      cases b with
      | nil => simp at h1
      | cons y b =>
        cases k with
        | nil => simp at h2
        | cons z k =>
          simp only [List.zipWith_cons_cons]
          rw [ih b k (by simpa using h1) (by simpa using h2)]
          have : x ^^^ z ^^^ (y ^^^ z) = x ^^^ y := by
            rw [BitVec.xor_comm y z, ← BitVec.xor_assoc, BitVec.xor_assoc x z z, BitVec.xor_self, BitVec.xor_zero]
          rw [this]
  exact key a b k h hk

/-- **C140.** Keys that agree when they are repeated up to 256 bytes give the same context. -/
theorem arc4_equal_keys (ctx ctx' : Ctx) (k1 k2 : List Byte) (h1 : k1 ≠ []) (h2 : k2 ≠ [])
    (h : ∀ n, n < 256 → k1[n % k1.length]? = k2[n % k2.length]?) : setkey ctx k1 = setkey ctx' k2 := by
  rw [setkey_eq ctx k1 h1, setkey_eq ctx' k2 h2]
  have hf : ∀ (l : List Nat), (∀ n ∈ l, n < 256) → ∀ st : (Byte → Byte) × Byte,
      l.foldl (fun (s : (Byte → Byte) × Byte) i =>
        let j := s.2 + s.1 (BitVec.ofNat 8 i) + k1.getD (i % k1.length) 0
        (swap s.1 (BitVec.ofNat 8 i) j, j)) st =
      l.foldl (fun (s : (Byte → Byte) × Byte) i =>
        let j := s.2 + s.1 (BitVec.ofNat 8 i) + k2.getD (i % k2.length) 0
        (swap s.1 (BitVec.ofNat 8 i) j, j)) st := by
    intro l
    induction l with
    | nil => intro _ st; rfl
    | cons n l ih =>
      intro hl st
      rw [List.foldl_cons, List.foldl_cons]
      have e : k1.getD (n % k1.length) 0 = k2.getD (n % k2.length) 0 := by
        rw [List.getD_eq_getElem?_getD, List.getD_eq_getElem?_getD, h n (hl n List.mem_cons_self)]
      rw [e]
      exact ih (fun m hm => hl m (List.mem_cons_of_mem _ hm)) _
  have : ksa k1 = ksa k2 := congrArg Prod.fst (hf (List.range 256) (fun n hn => List.mem_range.1 hn) _)
  rw [this]

/-- **C140.** Repeating a key does not change it. -/
theorem arc4_key_twice (ctx ctx' : Ctx) (key : List Byte) (hk : key ≠ []) : setkey ctx (key ++ key) = setkey ctx' key := by
  have hp := List.length_pos_iff.2 hk
  refine arc4_equal_keys ctx ctx' _ _ (by simp [hk]) hk fun n _ => ?_
  rw [List.length_append]
  have hlt := Nat.mod_lt n (show 0 < key.length + key.length by omega)
  have e : n % (key.length + key.length) % key.length = n % key.length := Nat.mod_mod_of_dvd n ⟨2, by omega⟩
  rw [List.getElem?_append]
  split
  · rename_i hh
    rw [Nat.mod_eq_of_lt hh] at e
    rw [e]
  · rename_i hh
    rw [Nat.mod_eq_sub_mod (by omega), Nat.mod_eq_of_lt (by omega)] at e
    rw [e]

/-- **C140.** The bytes of a key after the first 256 are ignored. -/
theorem arc4_key_long (ctx ctx' : Ctx) (key tail : List Byte) (h : 256 ≤ key.length) : setkey ctx (key ++ tail) = setkey ctx' key := by
  have hk : key ≠ [] := by intro e; rw [e] at h; simp at h
  refine arc4_equal_keys ctx ctx' _ _ (by simp [hk]) hk fun n hn => ?_
  rw [List.length_append, Nat.mod_eq_of_lt (by omega), Nat.mod_eq_of_lt (by omega), List.getElem?_append_left (by omega)]

theorem swap_swap (s : Byte → Byte) (i j : Byte) : swap (swap s i j) i j = s := by
  funext k
  by_cases h1 : k = i
  · subst h1; rw [swap_left, swap_right]
  · by_cases h2 : k = j
    · subst h2; rw [swap_right, swap_left]
    · simp [swap, h1, h2]

theorem advance_inj : ∀ (n : Nat) {s s' : Byte → Byte} {i i' j j' : Byte}, advance s i j n = advance s' i' j' n → s = s' ∧ i = i' ∧ j = j'
  | 0, _, _, _, _, _, _, h => by
    simp only [advance, Prod.mk.injEq] at h; exact h
  | n + 1, s, s', i, i', j, j', h => by
    obtain ⟨h1, h2, h3⟩ := advance_inj n h
    have hi : i = i' := by
      have := congrArg (· - 1#8) h2
      simpa [BitVec.add_sub_cancel] using this
    subst hi
    rw [h3] at h1
    have h4 : s = s' := by
      have := congrArg (fun t => swap t (i + 1) (j' + s' (i + 1))) h1
      simpa only [swap_swap] using this
    subst h4
    refine ⟨rfl, rfl, ?_⟩
    have := congrArg (· - s (i + 1)) h3
    simpa [BitVec.add_sub_cancel] using this

/-- **C140.** Different contexts stay different: those that agree after as many bytes agreed before. -/
theorem arc4_no_merge (ctx ctx' : Ctx) (a b : List Byte) (h : a.length = b.length) (e : (trans ctx a).1 = (trans ctx' b).1) : ctx = ctx' := by
  obtain ⟨box, proa, prob⟩ := ctx
  obtain ⟨box', proa', prob'⟩ := ctx'
  have hp : proa = (proa - 1) + 1 := by rw [BitVec.sub_add_cancel]
  have hp' : proa' = (proa' - 1) + 1 := by rw [BitVec.sub_add_cancel]
  generalize proa - 1 = i at hp
  generalize proa' - 1 = i' at hp'
  subst hp; subst hp'
  rw [trans_eq, trans_eq, h] at e
  simp only [Ctx.mk.injEq] at e
  obtain ⟨e1, e2, e3⟩ := e
  have e2 : (advance box i prob b.length).2.1 = (advance box' i' prob' b.length).2.1 := by
    have := congrArg (· - 1#8) e2
    simpa [BitVec.add_sub_cancel] using this
  obtain ⟨h1, h2, h3⟩ := advance_inj b.length (Prod.ext e1 (Prod.ext e2 e3))
  rw [h1, h2, h3]

/-- Not vacuous: a key of one byte and the same byte four times. -/
example (ctx : Ctx) : setkey ctx [7] = setkey ctx [7, 7, 7, 7] :=
  arc4_equal_keys ctx ctx _ _ (by decide) (by decide) (by decide +kernel)

example : (trans ⟨fun k => k, 1, 0⟩ [1, 2]).2 = [3, 7] := by decide +kernel

end Bfdev.Arc4

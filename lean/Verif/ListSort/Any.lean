import Verif.ListSort.Sim
set_option linter.unusedSimpArgs false
/-!
The sizes of the pending lists and the number of comparisons: after `c` nodes the `i`-th pending list (newest first) has
`2 ^ expo c i` nodes, so that only lists of the same size are merged in the main loop.
-/
namespace Bfdev.ListSort
open Bfdev.Dlist (Addr Heap upd upd_same upd_ne Links Ring Same)

/-- The exponent of the size of the `i`-th pending list after `c` nodes. -/
def expo (c : Nat) : Nat → Nat
  | 0 => 0
  | i + 1 => i + c / 2 ^ i % 2

/-- The pending lists after `c` nodes: as many as `c` has binary digits, of the sizes above. -/
structure Shape (c : Nat) (Ls : List (List Addr)) : Prop where
  hi : c < 2 ^ Ls.length
  lo : Ls ≠ [] → 2 ^ (Ls.length - 1) ≤ c
  size : ∀ i l, Ls[i]? = some l → l.length = 2 ^ expo c i

/-- What the merges so far may have cost. -/
def phi (Ls : List (List Addr)) : Nat := (Ls.map fun l => l.length * l.length.log2).sum

theorem phi_cons (l : List Addr) (Ls : List (List Addr)) : phi (l :: Ls) = l.length * l.length.log2 + phi Ls := by simp [phi]
theorem phi_append (A B : List (List Addr)) : phi (A ++ B) = phi A + phi B := by simp [phi]

theorem phi_le (Ls : List (List Addr)) (n : Nat) (h : ∀ l ∈ Ls, l.length ≤ n) : phi Ls ≤ Ls.flatten.length * n.log2 := by
  induction Ls with
  | nil => simp [phi]
  | cons l Ls ih =>
    rw [phi_cons, List.flatten_cons, List.length_append, Nat.add_mul]
    refine Nat.add_le_add (Nat.mul_le_mul_left _ ?_) (ih (fun l hl => h l (by simp [hl])))
    have := h l (by simp)
    by_cases h0 : l.length = 0
    · rw [h0]; simp
    · have h1 := Nat.log2_self_le (n := l.length) h0
      exact (Nat.le_log2 (by omega)).2 (by omega)

/-! ### Counting up in binary -/

section
variable {c t b : Nat}

theorem digit_low (h : c + 1 = 2 ^ t * (b + 1)) {i : Nat} (hi : i < t) : c / 2 ^ i % 2 = 1 ∧ (c + 1) / 2 ^ i % 2 = 0 := by
  obtain ⟨j, rfl⟩ : ∃ j, t = i + (j + 1) := ⟨t - i - 1, by omega⟩
  have hp : 0 < 2 ^ i := Nat.pow_pos (by omega)
  have e : 2 ^ (i + (j + 1)) * (b + 1) = 2 ^ i * (2 * (2 ^ j * (b + 1))) := by
    rw [Nat.pow_add, Nat.pow_succ, Nat.mul_assoc, Nat.mul_assoc, Nat.mul_left_comm (2 ^ j)]
  rw [e] at h
  have hq : 0 < 2 ^ j * (b + 1) := Nat.mul_pos (Nat.pow_pos (by omega)) (by omega)
  generalize 2 ^ j * (b + 1) = q at *
  constructor
  · obtain ⟨q, rfl⟩ : ∃ q', q = q' + 1 := ⟨q - 1, by omega⟩
    have e2 : c = 2 ^ i * (2 * q + 1) + (2 ^ i - 1) := by
      have : 2 ^ i * (2 * (q + 1)) = 2 ^ i * (2 * q + 1) + 2 ^ i := by rw [← Nat.mul_succ, show 2 * (q + 1) = (2 * q + 1).succ by omega]
      omega
    rw [e2, Nat.mul_add_div hp, Nat.div_eq_of_lt (by omega)]
    omega
  · rw [h, Nat.mul_div_cancel_left _ hp]; omega

theorem digit_at (h : c + 1 = 2 ^ t * (b + 1)) (hb : b % 2 = 0) : c / 2 ^ t % 2 = 0 ∧ (c + 1) / 2 ^ t % 2 = 1 ∧ c / 2 ^ t = b := by
  have hp : 0 < 2 ^ t := Nat.pow_pos (by omega)
  have e2 : c = 2 ^ t * b + (2 ^ t - 1) := by rw [Nat.mul_succ] at h; omega
  have e3 : c / 2 ^ t = b := by rw [e2, Nat.mul_add_div hp, Nat.div_eq_of_lt (by omega), Nat.add_zero]
  refine ⟨by rw [e3]; exact hb, ?_, e3⟩
  rw [h, Nat.mul_div_cancel_left _ hp]; omega

theorem digit_high (h : c + 1 = 2 ^ t * (b + 1)) (hb : b % 2 = 0) {i : Nat} (hi : t < i) : (c + 1) / 2 ^ i = c / 2 ^ i := by
  obtain ⟨j, rfl⟩ : ∃ j, i = t + (1 + j) := ⟨i - t - 1, by omega⟩
  have hp : 0 < 2 ^ t := Nat.pow_pos (by omega)
  rw [Nat.pow_add, ← Nat.div_div_eq_div_mul, ← Nat.div_div_eq_div_mul, (digit_at h hb).2.2, h, Nat.mul_div_cancel_left _ hp,
    Nat.pow_add, Nat.pow_one, ← Nat.div_div_eq_div_mul, ← Nat.div_div_eq_div_mul, show (b + 1) / 2 = b / 2 by omega]

theorem expo_low (h : c + 1 = 2 ^ t * (b + 1)) {i : Nat} (hi : i ≤ t) : expo c i = i := by
  cases i with
  | zero => rfl
  | succ i => rw [expo, (digit_low h (show i < t by omega)).1]

end

theorem shape_push {c : Nat} {Ls A B : List (List Addr)} (hS : Shape c Ls) (e : Ls = A ++ B) (h : c + 1 = 2 ^ A.length * (0 + 1)) (x : Addr) :
    Shape (c + 1) ([x] :: Ls) := by
  rw [Nat.zero_add, Nat.mul_one] at h
  have hlen : Ls.length = A.length + B.length := by rw [e]; simp
  have hAL : Ls.length = A.length := by
    by_cases hL : Ls = []
    · rw [hL] at hlen ⊢; simp at hlen ⊢; omega
    · have h1 := hS.lo hL
      have h2 : 2 ^ (Ls.length - 1) < 2 ^ A.length := by omega
      have := (Nat.pow_lt_pow_iff_right (by omega)).1 h2
      have := List.length_pos_iff.2 hL
      omega
  refine ⟨?_, fun _ => ?_, fun i l hl => ?_⟩
  · rw [List.length_cons, Nat.pow_succ, hAL, ← h]; omega
  · simp only [List.length_cons, Nat.add_sub_cancel, hAL, h, Nat.le_refl]
  · cases i with
    | zero =>
      simp only [List.getElem?_cons_zero, Option.some.injEq] at hl
      rw [← hl]; rfl
    | succ i =>
      rw [List.getElem?_cons_succ] at hl
      have hi : i < Ls.length := (List.getElem?_eq_some_iff.1 hl).1
      have h' : c + 1 = 2 ^ A.length * (0 + 1) := by omega
      rw [hS.size i l hl, expo_low h' (by omega), expo, (digit_low h' (show i < A.length by omega)).2, Nat.add_zero]

theorem shape_merge {c b : Nat} {A B : List (List Addr)} {l1 l2 m : List Addr} (hS : Shape c (A ++ l2 :: l1 :: B)) (hb : b % 2 = 0)
    (h : c + 1 = 2 ^ A.length * (b + 1)) (x : Addr) (hm : m.length = (l1 ++ l2).length) :
    Shape (c + 1) ([x] :: (A ++ m :: B)) ∧ phi (A ++ l2 :: l1 :: B) + l1.length + l2.length ≤ phi (A ++ m :: B) := by
  have s2 : l2.length = 2 ^ A.length := by
    rw [hS.size A.length l2 (by simp), expo_low h (Nat.le_refl _)]
  have s1 : l1.length = 2 ^ A.length := by
    rw [hS.size (A.length + 1) l1 (by simp), expo, (digit_at h hb).1, Nat.add_zero]
  have sm : m.length = 2 ^ (A.length + 1) := by rw [hm, List.length_append, s1, s2, Nat.pow_succ]; omega
  have hlenL : (A ++ l2 :: l1 :: B).length = A.length + B.length + 2 := by simp; omega
  constructor
  · have hlen : ([x] :: (A ++ m :: B)).length = A.length + B.length + 2 := by simp; omega
    refine ⟨?_, fun _ => ?_, fun i l hl => ?_⟩
    · rw [hlen]
      have h1 := hS.hi
      rw [hlenL] at h1
      refine Nat.lt_of_le_of_ne h1 (fun e => ?_)
      rw [h] at e
      have h3 : 2 ^ (A.length + B.length + 2) = 2 ^ A.length * 2 ^ (B.length + 2) := by rw [← Nat.pow_add, Nat.add_assoc]
      rw [h3] at e
      have := Nat.eq_of_mul_eq_mul_left (Nat.pow_pos (by omega)) e
      rw [Nat.pow_succ] at this
      omega
    · have h1 := hS.lo (by simp)
      rw [hlenL] at h1
      rw [hlen]
      omega
    · cases i with
      | zero =>
        simp only [List.getElem?_cons_zero, Option.some.injEq] at hl
        rw [← hl]; rfl
      | succ i =>
        rw [List.getElem?_cons_succ] at hl
        rw [expo]
        by_cases h1 : i < A.length
        · rw [List.getElem?_append_left h1] at hl
          have := hS.size i l (by rw [List.getElem?_append_left h1]; exact hl)
          rw [this, expo_low h (by omega), (digit_low h h1).2, Nat.add_zero]
        · rw [List.getElem?_append_right (by omega)] at hl
          by_cases h2 : i = A.length
          · subst h2
            simp only [Nat.sub_self, List.getElem?_cons_zero, Option.some.injEq] at hl
            rw [← hl, sm, (digit_at h hb).2.1]
          · obtain ⟨j, rfl⟩ : ∃ j, i = A.length + (j + 1) := ⟨i - A.length - 1, by omega⟩
            rw [show A.length + (j + 1) - A.length = j + 1 by omega, List.getElem?_cons_succ] at hl
            have := hS.size (A.length + (j + 2)) l (by
              rw [List.getElem?_append_right (by omega), show A.length + (j + 2) - A.length = j + 2 by omega]
              exact hl)
            rw [this, show A.length + (j + 2) = A.length + (j + 1) + 1 by omega, expo, digit_high h hb (by omega)]
  · simp only [phi_append, phi_cons, s1, s2, sm, Nat.log2_two_pow]
    rw [Nat.pow_succ]
    generalize 2 ^ A.length = w
    have e1 : w * 2 * (A.length + 1) = 2 * (w * A.length) + 2 * w := by
      rw [Nat.mul_add, Nat.mul_one, Nat.mul_right_comm, Nat.mul_comm (w * A.length), Nat.mul_comm w 2]
    rw [e1]
    omega

/-! ### The main loop and the final merges -/

theorem countSortLoop_ok (cmp : Nat → Addr → Addr → Int) (mfuel : Nat) : ∀ (fuel k : Nat) (s : Heap) (pending node count : Nat)
    (Ls : List (List Addr)) (P R : List Addr), PA s pending Ls 0 → SL s node R → (Ls.flatten ++ R).Nodup → Ls.flatten.Perm P →
    count < 2 ^ Ls.length → count < 2 ^ 32 → (P ≠ [] → Ls ≠ []) → (2 ≤ P.length → 2 ≤ Ls.length) → P.length + R.length ≤ mfuel → R.length < fuel →
    (P.length + R.length < 2 ^ 32 → count = P.length ∧ Shape count Ls ∧ k ≤ phi Ls) →
    ∃ s' p' k' Ls', countSortLoop cmp mfuel fuel k s pending node count = some (s', p', k') ∧ PA s' p' Ls' 0 ∧ Ls'.flatten.Perm (P ++ R) ∧
      (2 ≤ P.length + R.length → 2 ≤ Ls'.length) ∧
      (P.length + R.length < 2 ^ 32 → Shape (P.length + R.length) Ls' ∧ k' ≤ phi Ls') ∧ ∀ z, z ∉ Ls.flatten ++ R → Same s s' z := by
  intro fuel
  induction fuel with
  | zero => intro k s pending node count Ls P R _ _ _ _ _ _ _ _ _ hf; omega
  | succ fuel ih =>
    intro k s pending node count Ls P R hPA hSL hnd hC hcl hc32 hne h2 hmf hf hS
    rw [countSortLoop]
    cases R with
    | nil =>
      rw [if_pos (show node = 0 from hSL)]
      refine ⟨s, pending, k, Ls, rfl, hPA, by simpa using hC, by simpa using h2, fun h => ?_, fun _ _ => ⟨rfl, rfl⟩⟩
      obtain ⟨g1, g2, g3⟩ := hS h
      exact ⟨by simpa [g1] using g2, g3⟩
    | cons x R =>
      obtain ⟨rfl, hx0, hR⟩ := hSL
      rw [if_neg hx0]
      obtain ⟨A, B, bits', m', e1, e2, e3, e4, e5, e6⟩ := skip_ok s pending 32 count [] Ls pending rfl hPA hc32 hcl
      simp only [List.nil_append] at e2 e5
      have e2' : skip s pending 33 none count = some (tailOf A, bits') := e2
      rw [e2']
      simp only [bind, Option.bind]
      have hlenA : Ls.length = A.length + B.length := by rw [e1]; simp
      -- the state after the optional merge
      have key : ∃ s1 p1 k1 Ls1, countMergePending cmp mfuel k s pending (tailOf A) bits' = some (s1, p1, k1) ∧ PA s1 p1 Ls1 0 ∧ Ls1.flatten.Perm P ∧
          (count + 1) < 2 ^ (Ls1.length + 1) ∧ (P ≠ [] → 1 ≤ Ls1.length) ∧
          (P.length + (node :: R).length < 2 ^ 32 → Shape (count + 1) ([node] :: Ls1) ∧ k1 ≤ phi Ls1) ∧ ∀ z, z ∉ Ls.flatten → Same s s1 z := by
        unfold countMergePending
        by_cases hb : bits' = 0
        · subst hb
          rw [if_neg (by simp)]
          refine ⟨s, pending, k, Ls, rfl, hPA, hC, ?_, fun h => ?_, fun h => ⟨?_, (hS h).2.2⟩, fun _ _ => ⟨rfl, rfl⟩⟩
          · rw [Nat.pow_succ]; omega
          · have := hne h
            cases Ls with
            | nil => exact absurd rfl this
            | cons l Ls => simp
          · exact shape_push (hS h).2.1 e1 e4 node
        · rw [if_pos hb, load_tailOf e5]
          -- at least two more lists
          have hk : A.length + 2 ≤ Ls.length := by
            apply Nat.lt_of_not_le
            intro hle
            have h1 : 2 ^ Ls.length ≤ 2 ^ (A.length + 1) := Nat.pow_le_pow_right (by omega) (by omega)
            have h2 : 2 ^ A.length * 3 ≤ 2 ^ A.length * (bits' + 1) := Nat.mul_le_mul_left _ (by omega)
            rw [Nat.pow_succ] at h1
            have : 0 < 2 ^ A.length := Nat.pow_pos (by omega)
            omega
          obtain ⟨l2, B, rfl⟩ := List.exists_cons_of_ne_nil (l := B) (by intro e; subst e; simp at hlenA; omega)
          obtain ⟨l1, B, rfl⟩ := List.exists_cons_of_ne_nil (l := B) (by intro e; subst e; simp at hlenA; omega)
          obtain ⟨g1, g2, g3, g4, g5⟩ := e6
          have hm : m' ≠ 0 := fun e => g1 ((SL_zero g2).1 e)
          have hm1 : s.prev m' ≠ 0 := fun e => g3 ((SL_zero g4).1 e)
          simp only [deref, if_neg hm, if_neg hm1, bind, Option.bind]
          subst e1
          simp only [List.flatten_append, List.flatten_cons] at hnd
          have hle : l1.length + l2.length ≤ mfuel := by
            have := hC.length_eq
            simp only [List.flatten_append, List.flatten_cons, List.length_append] at this
            omega
          obtain ⟨s1, h, k1, mm, r1, r2, r3, r4, hmg, hmp, r5⟩ := countMerge_ok cmp k g4 g2 g3 g1 (by ndn hnd) hle
          rw [r1]
          simp only
          have hhm : h ∈ l1 ++ l2 := by
            refine hmp.mem_iff.1 ?_
            obtain ⟨y, t, e⟩ := List.exists_cons_of_ne_nil hmg
            rw [e] at r4 ⊢
            rw [r4.1]; simp
          have hpm : s.prev m' ∈ l1 := by
            obtain ⟨y, t, e⟩ := List.exists_cons_of_ne_nil g3
            rw [e] at g4 ⊢
            rw [g4.1]; simp
          -- lists before and after are untouched by the merge
          have hA1 : PA (s1.setPrev h (s1.prev (s.prev m'))) pending A m' := by
            refine PA_frame e5 (fun z hz => r3 z (by ndm hnd, hz)) (fun z hz => ?_)
            have : z ∉ l1 ++ l2 := by ndm hnd, hz
            have : z ≠ h := fun e => this (e ▸ hhm)
            simp only [Heap.setPrev, upd, if_neg this, r2]
          have hndA : A.flatten.Nodup := by ndn hnd
          obtain ⟨s2, p2, q1, q2, q3, q4⟩ := store_tailOf hA1 hndA h
          rw [q1]
          refine ⟨s2, p2, k1, A ++ mm :: B, rfl, ?_, ?_, ?_, fun _ => by simp; omega, fun h => ?_, fun z hz => ?_⟩
          · refine (PA_append _ _ _ _ _).2 ⟨h, q2, hmg, SL_frame r4 (fun z hz => by rw [q3]; rfl), ?_⟩
            have hhA : h ∉ A.flatten := by ndm hnd, hhm
            have e : s2.prev h = s.prev (s.prev m') := by
              rw [q4 h hhA]
              simp [Heap.setPrev, r2]
            rw [e]
            refine PA_frame g5 (fun z hz => ?_) (fun z hz => ?_)
            · rw [q3]; exact r3 z (by ndm hnd, hz)
            · rw [q4 z (by ndm hnd, hz)]
              have : z ∉ l1 ++ l2 := by ndm hnd, hz
              have : z ≠ h := fun e => this (e ▸ hhm)
              simp only [Heap.setPrev, upd, if_neg this, r2]
          · refine List.Perm.trans ?_ hC
            simp only [List.flatten_append, List.flatten_cons]
            refine List.Perm.append_left _ ?_
            rw [← List.append_assoc]
            exact (hmp.trans List.perm_append_comm).append_right _
          · have hlen : (A ++ mm :: B).length + 1 = (A ++ l2 :: l1 :: B).length := by simp; omega
            rw [hlen]
            -- `count` is not all ones
            have hlt : count + 1 ≤ 2 ^ (A ++ l2 :: l1 :: B).length := hcl
            refine Nat.lt_of_le_of_ne hlt (fun e => ?_)
            rw [e4] at e
            have hodd : (bits' + 1) % 2 = 1 := by omega
            have h3 : 2 ^ (A ++ l2 :: l1 :: B).length = 2 ^ A.length * 2 ^ (B.length + 2) := by
              rw [← Nat.pow_add]; simp
            rw [h3] at e
            have := Nat.eq_of_mul_eq_mul_left (Nat.pow_pos (by omega)) e
            rw [this, Nat.pow_succ] at hodd
            omega
          · obtain ⟨_, hsh, hk'⟩ := hS h
            obtain ⟨w1, w2⟩ := shape_merge hsh e3 e4 node hmp.length_eq
            exact ⟨w1, by omega⟩
          · have hz1 : z ∉ l1 ++ l2 := fun h => hz (by simp only [List.flatten_append, List.flatten_cons, List.mem_append] at h ⊢; grind)
            have hzA : z ∉ A.flatten := fun h => hz (by simp only [List.flatten_append, List.mem_append]; exact Or.inl h)
            have hzh : z ≠ h := fun e => hz1 (e ▸ hhm)
            refine ⟨by rw [q3]; exact r3 z hz1, ?_⟩
            rw [q4 z hzA]
            simp only [Heap.setPrev, upd, if_neg hzh, r2]
      obtain ⟨s1, p1, kk, Ls1, k1, k2, k3, k4, k5, k7, k6⟩ := key
      rw [k1]
      simp only
      have hsame1 : s1.next node = s.next node := (k6 node (by nds hnd)).1
      have hp1 : ∀ z, z ∈ Ls1.flatten ↔ z ∈ Ls.flatten := fun z => (k3.trans hC.symm).mem_iff
      have hnd1 : (Ls1.flatten ++ node :: R).Nodup := (((k3.trans hC.symm).append_right _).nodup_iff).2 hnd
      have hs2 : ∀ z, z ≠ node → Same s1 ((s1.setPrev node p1).setNext node 0) z := fun z hz => by
        simp [Same, Heap.setPrev, Heap.setNext, upd, hz]
      obtain ⟨s', p', k', Ls', t1, t2, t3, t4, t6, t5⟩ := ih kk ((s1.setPrev node p1).setNext node 0) node ((s1.setPrev node p1).next node) ((count + 1) % 2 ^ 32)
        ([node] :: Ls1) (P ++ [node]) R
        ⟨by simp, ⟨rfl, hx0, by simp [SL, Heap.setNext]⟩, by
          have e : ((s1.setPrev node p1).setNext node 0).prev node = p1 := by simp [Heap.setPrev, Heap.setNext]
          rw [e]
          exact PA_frame k2 (fun z hz => (hs2 z (by refine nd_ne ?_; ndm hnd1, hz)).1) (fun z hz => (hs2 z (by refine nd_ne ?_; ndm hnd1, hz)).2)⟩
        (by
          have e : (s1.setPrev node p1).next node = s.next node := hsame1
          rw [e]
          refine SL_frame hR (fun z hz => ?_)
          rw [(hs2 z (by refine nd_ne ?_; ndm hnd, hz)).1]
          exact (k6 z (by ndm hnd, hz)).1)
        (by ndn hnd1) (by
          simp only [List.flatten_cons, List.singleton_append]
          exact (k3.cons node).trans (List.perm_append_comm (l₁ := [node])))
        (by simp only [List.length_cons]; exact Nat.lt_of_le_of_lt (Nat.mod_le _ _) k4)
        (Nat.mod_lt _ (by decide)) (by simp)
        (fun h => by
          have : P ≠ [] := by intro e; simp [e] at h
          have := k5 this
          simp only [List.length_cons]; omega)
        (by simp only [List.length_append, List.length_cons, List.length_nil] at hmf ⊢; omega)
        (by simp only [List.length_cons] at hf; omega)
        (fun h => by
          have h' : P.length + (node :: R).length < 2 ^ 32 := by simp only [List.length_append, List.length_cons, List.length_nil] at h ⊢; omega
          obtain ⟨w1, w2⟩ := k7 h'
          obtain ⟨w3, _⟩ := hS h'
          have e : (count + 1) % 2 ^ 32 = count + 1 := Nat.mod_eq_of_lt (by simp only [List.length_cons] at h'; omega)
          rw [e]
          refine ⟨by simp [w3], w1, ?_⟩
          rw [phi_cons]
          omega)
      refine ⟨s', p', k', Ls', t1, t2, by simpa using t3, fun h => t4 (by simp at h ⊢; omega), fun h => ?_, fun z hz => ?_⟩
      · have h' : (P ++ [node]).length + R.length = P.length + (node :: R).length := by simp; omega
        rw [h'] at t6
        exact t6 h
      have hzn : z ≠ node := fun e => hz (by simp [e])
      have hz1 : z ∉ Ls.flatten := fun h => hz (by simp only [List.mem_append]; exact Or.inl h)
      refine ((k6 z hz1).trans (hs2 z hzn)).trans (t5 z (fun h => hz ?_))
      simp only [List.flatten_cons, List.mem_append, List.mem_cons, List.mem_singleton, hp1] at h ⊢
      grind

theorem countCollapse_ok (cmp : Nat → Addr → Addr → Int) (mfuel : Nat) : ∀ (fuel k : Nat) (s : Heap) (p node : Addr)
    (Ls : List (List Addr)) (m : List Addr) (P : List Addr), PA s p Ls 0 → Ls ≠ [] → SL s node m → m ≠ [] → (m ++ Ls.flatten).Nodup →
    (m ++ Ls.flatten).Perm P → (m ++ Ls.flatten).length ≤ mfuel → Ls.length ≤ fuel →
    ∃ s' p' n' k' l' m', countCollapse cmp mfuel fuel k s p node = some (s', p', n', k') ∧ SL s' p' l' ∧ l' ≠ [] ∧ SL s' n' m' ∧ m' ≠ [] ∧
      (m' ++ l').Perm P ∧ k' ≤ k + (Ls.length - 1) * P.length ∧ ∀ z, z ∉ m ++ Ls.flatten → Same s s' z := by
  intro fuel
  induction fuel with
  | zero => intro k s p node Ls m P _ h _ _ _ _ _ hf; exact absurd (List.eq_nil_of_length_eq_zero (by omega)) h
  | succ fuel ih =>
    intro k s p node Ls m P hPA hLs hm hm0 hnd hC hmf hf
    have hp0 := PA_head_ne hPA hLs
    obtain ⟨l, Ls, rfl⟩ := List.exists_cons_of_ne_nil hLs
    obtain ⟨h1, h2, h3⟩ := hPA
    simp only [countCollapse, deref, if_neg hp0, bind, Option.bind]
    by_cases hz : s.prev p = 0
    · rw [if_pos hz]
      have : Ls = [] := Classical.byContradiction (fun h => PA_head_ne h3 h hz)
      subst this
      exact ⟨s, p, node, k, l, m, rfl, h2, h1, hm, hm0, by simpa using hC, by simp, fun _ _ => ⟨rfl, rfl⟩⟩
    · rw [if_neg hz]
      simp only [List.flatten_cons, List.length_append] at hmf
      simp only [List.flatten_cons] at hnd
      obtain ⟨s1, h, k1, mm, r1, r2, r3, r4, hmg, hp, r5⟩ := countMerge_ok cmp (fuel := mfuel) k h2 hm h1 hm0 (by ndn hnd) (by omega)
      rw [r1]
      simp only
      have hL : Ls ≠ [] := by rintro rfl; exact hz h3
      have hnd' : (mm ++ Ls.flatten).Nodup := ((hp.append_right _).nodup_iff).2 (by ndn hnd)
      have hlen := hp.length_eq
      obtain ⟨s', p', n', k', l', m', t1, t2, t3, t4, t5, t6, t8, t7⟩ := ih k1 s1 (s.prev p) h Ls mm P
        (PA_frame h3 (fun z hz => r3 z (by ndm hnd, hz)) (fun z hz => by rw [r2])) hL r4 hmg hnd'
        (by
          refine List.Perm.trans ?_ hC
          rw [List.flatten_cons, ← List.append_assoc]
          exact (hp.trans List.perm_append_comm).append_right _) (by simp only [List.length_append] at hlen ⊢; omega) (by simp only [List.length_cons] at hf; omega)
      refine ⟨s', p', n', k', l', m', t1, t2, t3, t4, t5, t6, ?_, fun z hz => ?_⟩
      · have hPl := hC.length_eq
        simp only [List.flatten_cons, List.length_append] at hPl
        have hLl := List.length_pos_iff.2 hL
        have e : (l :: Ls).length - 1 = (Ls.length - 1) + 1 := by simp only [List.length_cons]; omega
        rw [e, Nat.succ_mul]
        omega
      have hz1 : z ∉ l ++ m := fun h => hz (by simp only [List.flatten_cons, List.mem_append] at h ⊢; grind)
      refine Same.trans ⟨r3 z hz1, by rw [r2]⟩ (t7 z (fun h => hz ?_))
      have hm := hp.mem_iff (a := z)
      simp only [List.flatten_cons, List.mem_append] at h hm ⊢
      grind

/-- **C107**, the list sort: whatever the comparison answers, call by call, sorting ends without touching a NULL pointer and leaves a
proper ring of exactly the same nodes; nothing outside the list is touched. Lists of fewer than `2^32` nodes get at most
`2 · n · log2 n` calls (beyond that the 32-bit counter that balances the merges wraps). -/
theorem any_answers (cmp : Nat → Addr → Addr → Int) {s : Heap} {head : Addr} {xs : List Addr}
    (hr : Ring s (head :: xs)) (hnd : (head :: xs).Nodup) (h0 : ∀ x ∈ xs, x ≠ 0) {fuel : Nat} (hf : xs.length < fuel) :
    ∃ s' ys calls, countSort cmp fuel s head = some (s', calls) ∧ Ring s' (head :: ys) ∧ ys.Perm xs ∧
      (xs.length < 2 ^ 32 → calls ≤ 2 * xs.length * xs.length.log2) ∧ ∀ z, z ∉ head :: xs → Same s s' z := by
  unfold countSort
  simp only
  cases xs with
  | nil =>
    have e1 : s.next head = s.prev head := by rw [hr.1, hr.2]
    rw [if_pos e1]
    exact ⟨s, [], 0, rfl, hr, List.Perm.refl _, fun _ => Nat.zero_le _, fun _ _ => ⟨rfl, rfl⟩⟩
  | cons x xs =>
    cases xs with
    | nil =>
      have e1 : s.next head = s.prev head := by rw [hr.1, hr.2.2.2]
      rw [if_pos e1]
      exact ⟨s, [x], 0, rfl, hr, List.Perm.refl _, fun _ => Nat.zero_le _, fun _ _ => ⟨rfl, rfl⟩⟩
    | cons y t =>
      have hpm : s.prev head ∈ y :: t := Dlist.links_prev_mem hr.2.2.2.2
      have hxp : x ≠ s.prev head := fun e => absurd (e ▸ hpm) (by nds hnd)
      rw [if_neg (by rw [hr.1]; exact hxp)]
      have hsl := cut_ring hr (by simp) hnd h0
      have hhp : head ≠ s.prev head := by
        refine Ne.symm (nd_ne ?_)
        ndm hnd, hpm
      have e2 : (s.setNext (s.prev head) 0).next head = s.next head := by simp [Heap.setNext, upd, hhp]
      rw [e2] at hsl
      obtain ⟨s1, p1, k1, Ls, a1, a2, a3, a4, a6, a5⟩ := countSortLoop_ok cmp fuel fuel 0 (s.setNext (s.prev head) 0) 0 (s.next head) 0 [] [] (x :: y :: t)
        rfl hsl (by ndn hnd) (by simp) (by simp) (by decide) (by simp) (by simp)
        (by simp at hf ⊢; omega) hf (fun _ => ⟨rfl, ⟨by simp, by simp, by simp⟩, Nat.zero_le _⟩)
      simp only [List.nil_append] at a3
      have hlen := a4 (by simp)
      obtain ⟨m, Ls, rfl⟩ := List.exists_cons_of_ne_nil (l := Ls) (by rintro rfl; simp at hlen)
      have hLs : Ls ≠ [] := by rintro rfl; simp at hlen
      have hp0 := PA_head_ne a2 (by simp)
      obtain ⟨b1, b2, b3⟩ := a2
      simp only [a1, bind, Option.bind, deref, if_neg hp0]
      have hlen1 := a3.length_eq
      have hlens := PA_length b3
      have hnd1 : (head :: (m :: Ls).flatten).Nodup := ((a3.cons head).nodup_iff).2 hnd
      obtain ⟨s2, p2, n2, k2, l2, m2, c1, c2, c3, c4, c5, c6, c8, c7⟩ := countCollapse_ok cmp fuel fuel k1 s1 (s1.prev p1) p1 Ls m (x :: y :: t) b3 hLs b2 b1
        (by ndn hnd1) (by simpa using a3) (by simp only [List.flatten_cons] at hlen1; rw [hlen1]; omega)
        (by simp only [List.flatten_cons, List.length_append] at hlen1; omega)
      rw [c1]
      simp only
      have hp2 : (l2 ++ m2).Perm (x :: y :: t) := List.perm_append_comm.trans c6
      have hnd2 : (head :: (l2 ++ m2)).Nodup := ((hp2.cons head).nodup_iff).2 hnd
      have hlen2 := hp2.length_eq
      obtain ⟨s3, k3, ys, d1, d2, d3, d4, d5⟩ := countFinish_ok cmp (fuel := fuel) k2 c2 c4 c3 c5 hnd2 (by rw [List.length_append] at hlen2; omega)
      refine ⟨s3, ys, k3, d1, d2, d3.trans hp2, fun hlt => ?_, fun z hz => ?_⟩
      · have hn2 : 0 < (x :: y :: t).length := by simp
        generalize hn : (x :: y :: t).length = n at *
        obtain ⟨w1, w2⟩ := a6 (by simpa using hlt)
        have w3 : phi (m :: Ls) ≤ n * n.log2 := by
          have := phi_le (m :: Ls) n (fun l hl => by
            rw [← hlen1]
            exact (List.sublist_flatten_of_mem hl).length_le)
          rw [hlen1] at this
          exact this
        have w4 : Ls.length ≤ n.log2 := by
          have := w1.lo (by simp)
          simp only [List.length_cons, Nat.add_sub_cancel, List.length_nil, Nat.zero_add] at this
          exact (Nat.le_log2 (by omega)).2 this
        have w5 : (Ls.length - 1) * n + n ≤ n.log2 * n := by
          have hLl := List.length_pos_iff.2 hLs
          rw [← Nat.succ_mul]
          exact Nat.mul_le_mul_right _ (by omega)
        rw [List.length_append] at hlen2
        rw [Nat.mul_assoc, Nat.two_mul]
        rw [Nat.mul_comm n.log2] at w5
        omega
      · have h1 : Same s (s.setNext (s.prev head) 0) z := by
          have : z ≠ s.prev head := by
            rintro rfl
            exact hz (by simp only [List.mem_cons] at hpm ⊢; exact Or.inr (Or.inr hpm))
          simp [Same, Heap.setNext, upd, this]
        have h2 : z ∉ x :: y :: t := fun h => hz (List.mem_cons_of_mem _ h)
        refine ((h1.trans (a5 z (by simpa using h2))).trans (c7 z (fun h => h2 (a3.mem_iff.1 (by simpa using h))))).trans
          (d5 z (fun h => hz (((hp2.cons head).mem_iff).1 h)))

/-- A comparison that always says "greater", and one that contradicts itself at every other call. -/
example : (countSort (fun _ _ _ => 1) 6 demo 1).map (fun r => (Dlist.forEach r.1 1 6, Dlist.forEachReverse r.1 1 6, r.2)) =
      some (some [6, 2, 4, 3, 5], some [5, 3, 4, 2, 6], 6) ∧
    (countSort (fun k _ _ => if k % 2 = 0 then 1 else 0) 6 demo 1).map (fun r => (Dlist.forEach r.1 1 6, r.2)) =
      some (some [3, 6, 5, 4, 2], 6) := by decide +kernel

end Bfdev.ListSort

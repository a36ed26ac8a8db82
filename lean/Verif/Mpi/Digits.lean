import Verif.Mpi.DivProps
/-!
C121: big integers built from digits and taken apart into digits, in any base: how programs read and print them with `bfdev_mpi_muli`, `bfdev_mpi_addi` and `bfdev_mpi_divi`.
-/
set_option linter.unusedSimpArgs false
namespace Bfdev.Mpi.Digits
open Mpi

/-- The loop of a program that reads digits: `num = num * base; num = num + digit` (mpi.c:1359-1371 and 1206-1251), with what the allocator does during both calls; it stops at an error. -/
def build (d base : Nat) : Store → List (Nat × Grant) → Res
  | S, [] => some (S, .ok)
  | S, (x, g) :: rest =>
    let m := muli S g d d base
    if m.2 ≠ .ok then some m
    else (addi m.1 g d d x).bind fun a => if a.2 ≠ .ok then some a else build d base a.1 rest

/-- The loop of a program that prints digits: `num, digit = num / base, num % base` (mpi.c:1434-1483), the lowest first. The digit is the lowest limb of the remainder. -/
def takeApart (d r base : Nat) : Store → List Grant → Option (Store × Code × List Nat)
  | S, [] => some (S, .ok, [])
  | S, g :: rest =>
    (divi S g d r d base).bind fun q =>
      if q.2 ≠ .ok then some (q.1, q.2, [])
      else (takeApart d r base q.1 rest).map fun t => (t.1, t.2.1, (q.1 r).limbs.headD 0 :: t.2.2)

/-! ## Specification -/

/-- The number with these digits, the highest first, after the number `v`. -/
def number (base : Nat) : Nat → List Nat → Nat
  | v, [] => v
  | v, x :: l => number base (v * base + x) l

/-- The lowest `n` digits of a number, the lowest first. -/
def digits (base : Nat) : Nat → Nat → List Nat
  | 0, _ => []
  | n + 1, v => v % base :: digits base n (v / base)

/-! ## Proofs -/

theorem limb_of {o : Mpi} {x : Nat} (h : Wf o) (hv : value o = (x : Int)) (hx : x < W64) : o.limbs.headD 0 = x := by
  have hval : val o.limbs = x := by
    unfold value at hv
    split at hv <;> omega
  cases hl : o.limbs with
  | nil => rw [hl] at hval; exact hval
  | cons a l =>
    rw [hl, val] at hval
    cases l with
    | nil => simpa [val] using hval
    | cons b l' =>
      have h1 : 1 ≤ val (b :: l') := by
        have h2 := val_ge (l := b :: l') (by have := h.top; rw [hl] at this; simpa using this) (by simp)
        have : 1 ≤ W64 ^ ((b :: l').length - 1) := Nat.pow_pos (by decide)
        omega
      have : W64 * 1 ≤ W64 * val (b :: l') := Nat.mul_le_mul_left _ h1
      omega

theorem muli_plus {S : Store} {g : Grant} {d vi : Nat} (hd : Wf (S d)) (hv : vi < W64) : ((muli S g d d vi).1 d).plus = (S d).plus := by
  obtain ⟨l, e2, _, _⟩ := mpiMuli_puts (d := d) g hd hv
  unfold muli thenPlus
  rcases e2 with ⟨cap, _, e⟩ | ⟨e, _, _⟩
  · rw [e]
    show (setPlus _ _ _ d).plus = _
    rw [setPlus_self]
    show (store S d cap l d).plus = _
    rw [store_self]
  · rw [e]; rfl

theorem addi_plus {S : Store} {g : Grant} {d vi : Nat} {s : Store × Code} (hp : (S d).plus = true) (hd : Wf (S d)) (hv : vi < W64) (e : addi S g d d vi = some s) : (s.1 d).plus = true := by
  obtain ⟨l, e2, _, _⟩ := mpiAddi_puts (d := d) g hd hv
  unfold addi at e
  rw [if_pos hp] at e
  cases e
  unfold thenPlus
  rcases e2 with ⟨cap, _, e⟩ | ⟨e, _, _⟩
  · rw [e]
    show (setPlus _ _ _ d).plus = _
    rw [setPlus_self]
  · rw [e]; exact hp

theorem length_le {o : Mpi} {v k : Nat} (h : Wf o) (hv : value o = (v : Int)) (hk : v < W64 ^ k) : o.limbs.length ≤ k := by
  have hval : val o.limbs = v := by
    unfold value at hv
    split at hv <;> omega
  rcases Nat.eq_zero_or_pos o.limbs.length with h0 | h0
  · omega
  · have h1 := val_ge h.top (by intro h; rw [h] at h0; cases h0)
    rw [hval] at h1
    rcases Nat.lt_or_ge k o.limbs.length with c | c
    · have : W64 ^ k ≤ W64 ^ (o.limbs.length - 1) := Nat.pow_le_pow_right (by decide) (by omega)
      omega
    · exact c

theorem step_lt {v k base x : Nat} (hv : v < W64 ^ k) (hb : base < W64) (hx : x < W64) : v * base + x < W64 ^ (k + 1) := by
  have h1 : v * base ≤ v * (W64 - 1) := Nat.mul_le_mul_left _ (by omega)
  have h2 : v * W64 + W64 ≤ W64 ^ k * W64 := by
    rw [← Nat.succ_mul]; exact Nat.mul_le_mul_right _ hv
  have h3 : v * (W64 - 1) = v * W64 - v := by rw [Nat.mul_sub, Nat.mul_one]
  have h4 : v ≤ v * W64 := Nat.le_mul_of_pos_right _ (by decide)
  rw [Nat.pow_succ]
  omega

/-- **C121.** Reading digits: the calls never go wrong, only the number changes, and when all of them succeed — as they do
while the allocator is willing and the number fits into the address space — it is the number with these digits. -/
theorem build_correct {d base : Nat} (hbase : base < 2 ^ 64) : ∀ (xs : List (Nat × Grant)) {S : Store} {v : Nat}, Wf (S d) → (S d).plus = true → value (S d) = v → (∀ p ∈ xs, p.1 < 2 ^ 64) →
    ∃ S' c, build d base S xs = some (S', c) ∧ (∀ i, i ≠ d → S' i = S i) ∧ Wf (S' d) ∧ (S' d).plus = true ∧
      (c = .ok → value (S' d) = number base v (xs.map (·.1))) ∧ (c ≠ .ok → c = .nomem) ∧
      ((∀ p ∈ xs, p.2.obj d = true) → ∀ k, v < (2 ^ 64) ^ k → k + xs.length + 1 ≤ 2 ^ 60 → c = .ok)
  | [], S, v, hw, hp, hv, _ => ⟨S, .ok, rfl, fun _ _ => rfl, hw, hp, fun _ => hv, fun h => absurd rfl h, fun _ _ _ _ => rfl⟩
  | (x, g) :: rest, S, v, hw, hp, hv, hx => by
    obtain ⟨S1, c1, e1, f1, h1, g1⟩ := muli_correct S g d d base hw hbase
    have e1 := Option.some.inj e1
    have hp1 := muli_plus (g := g) hw hbase
    rw [e1] at hp1
    simp only [build, e1]
    rcases h1 with ⟨rfl, hw1, hv1⟩ | ⟨rfl, rfl⟩
    · rw [if_neg (by simp)]
      have hx0 : x < 2 ^ 64 := hx (x, g) (by simp)
      obtain ⟨S2, c2, e2, f2, h2, g2⟩ := addi_correct_partial S1 g d d x hw1 hx0 (Or.inl (hp1.trans hp))
      rw [e2, Option.bind_some]
      rcases h2 with ⟨rfl, hw2, hv2⟩ | ⟨rfl, rfl⟩
      · rw [if_neg (by simp)]
        have hp2 := addi_plus (hp1.trans hp) hw1 hx0 e2
        have hv' : value (S2 d) = ((v * base + x : Nat) : Int) := by
          rw [hv2, hv1, hv]; simp
        obtain ⟨S', c, a1, a2, a3, a4, a5, a6, a7⟩ := build_correct hbase rest hw2 hp2 hv' (fun p hp => hx p (by simp [hp]))
        exact ⟨S', c, a1, fun i hi => (a2 i hi).trans ((f2 i hi).trans (f1 i hi)), a3, a4, a5, a6, fun hg k hk hl =>
          a7 (fun p h => hg p (by simp [h])) (k + 1) (step_lt hk hbase hx0) (by rw [List.length_cons] at hl; omega)⟩
      · rw [if_pos (by simp)]
        refine ⟨_, _, rfl, f1, hw1, hp1.trans hp, (by intro h; cases h), fun _ => rfl, fun hg k hk hl => ?_⟩
        rw [List.length_cons] at hl
        have hv1' : value (S2 d) = ((v * base : Nat) : Int) := by rw [hv1, hv]; simp
        have := length_le hw1 hv1' (step_lt (x := 0) hk hbase (by decide))
        exact g2 (hg (x, g) (by simp)) (by omega)
    · rw [if_pos (by simp)]
      refine ⟨_, _, rfl, fun _ _ => rfl, hw, hp, (by intro h; cases h), fun _ => rfl, fun hg k hk hl => ?_⟩
      rw [List.length_cons] at hl
      have := length_le hw hv hk
      exact g1 (hg (x, g) (by simp)) (by omega)

/-- **C121.** Printing digits: as long as there is memory for the remainder the calls never go wrong, and when all of them succeed the remainders are the lowest digits of the number, and the
number has lost them. -/
theorem takeApart_correct {d r base : Nat} (hbase : base < 2 ^ 64) (h0 : base ≠ 0) (hdr : d ≠ r) : ∀ (gs : List Grant) {S : Store} {v : Nat}, Wf (S d) → value (S d) = v →
    (∀ g ∈ gs, g.obj r = true) → ∃ S' c ds, takeApart d r base S gs = some (S', c, ds) ∧ (∀ i, i ≠ d → i ≠ r → S' i = S i) ∧
      (c = .ok → ds = digits base gs.length v ∧ value (S' d) = v / base ^ gs.length ∧ Wf (S' d)) ∧ (c ≠ .ok → c = .nomem) ∧
      ((∀ g ∈ gs, g.obj d = true ∧ g.buf = true) → ∀ k, v < (2 ^ 64) ^ k → k + 1 ≤ 2 ^ 60 → c = .ok)
  | [], S, v, hw, hv, _ => ⟨S, .ok, [], rfl, fun _ _ _ => rfl, fun _ => ⟨rfl, by simp [hv], hw⟩, fun h => absurd rfl h, fun _ _ _ _ => rfl⟩
  | g :: rest, S, v, hw, hv, hg => by
    obtain ⟨S1, c1, e1, f1, h1, g1⟩ := divi_correct_partial S g d r d base hw hbase h0 hdr (Or.inr (hg g (by simp)))
    simp only [takeApart, e1, Option.bind_some]
    rcases h1 with ⟨rfl, ⟨hw1, hv1⟩, hw2, hv2⟩ | rfl
    · rw [if_neg (by simp)]
      have hq : value (S1 d) = ((v / base : Nat) : Int) := by
        rw [hv1, hv]; exact (Int.ofNat_tdiv v base).symm
      have hr : value (S1 r) = ((v % base : Nat) : Int) := by
        rw [hv2, hv]; exact (Int.ofNat_tmod v base).symm
      have hlt : v % base < W64 := Nat.lt_trans (Nat.mod_lt _ (Nat.pos_of_ne_zero h0)) hbase
      rw [limb_of hw2 hr hlt]
      obtain ⟨S', c, ds, a1, a2, a3, a4, a5⟩ := takeApart_correct hbase h0 hdr rest hw1 hq (fun g h => hg g (by simp [h]))
      refine ⟨S', c, v % base :: ds, by rw [a1]; rfl, fun i h1 h2 => (a2 i h1 h2).trans (f1 i h1 h2), fun hc => ?_, a4, fun hg k hk hl =>
        a5 (fun g h => hg g (by simp [h])) k (Nat.lt_of_le_of_lt (Nat.div_le_self _ _) hk) hl⟩
      obtain ⟨b1, b2, b3⟩ := a3 hc
      refine ⟨by rw [b1]; rfl, ?_, b3⟩
      rw [b2]
      have : v / base / base ^ rest.length = v / base ^ (g :: rest).length := by
        rw [List.length_cons, Nat.pow_succ, Nat.mul_comm, Nat.div_div_eq_div_mul]
      exact_mod_cast congrArg (fun n : Nat => (n : Int)) this
    · rw [if_pos (by simp)]
      refine ⟨_, _, _, rfl, f1, (by intro h; cases h), fun _ => rfl, fun hg' k hk hl => ?_⟩
      have := length_le hw hv hk
      exact g1 (hg' g (by simp)).1 (hg g (by simp)) (hg' g (by simp)).2 (by omega)

theorem number_snoc (base : Nat) : ∀ (l : List Nat) (v x : Nat), number base v (l ++ [x]) = number base v l * base + x
  | [], _, _ => rfl
  | y :: l, v, x => number_snoc base l (v * base + y) x

/-- The digits of a number built from digits are these digits. -/
theorem digits_number {base : Nat} : ∀ (l : List Nat) (v : Nat), (∀ x ∈ l, x < base) → digits base l.length (number base v l.reverse) = l ∧ number base v l.reverse / base ^ l.length = v
  | [], v, _ => by simp [digits, number]
  | x :: l, v, h => by
    have hx := h x (by simp)
    obtain ⟨h1, h2⟩ := digits_number l v (fun y hy => h y (by simp [hy]))
    rw [List.reverse_cons, number_snoc, List.length_cons, digits]
    have e1 : (number base v l.reverse * base + x) % base = x := by
      rw [Nat.mul_comm, Nat.mul_add_mod, Nat.mod_eq_of_lt hx]
    have e2 : (number base v l.reverse * base + x) / base = number base v l.reverse := by
      rw [Nat.mul_comm, Nat.mul_add_div (by omega), Nat.div_eq_of_lt hx, Nat.add_zero]
    refine ⟨by rw [e1, e2, h1], ?_⟩
    rw [Nat.pow_succ, Nat.mul_comm (base ^ l.length), ← Nat.div_div_eq_div_mul, e2, h2]

/-- **C121.** Round trip: digits that a program reads into a number and prints again come back, in the opposite order, in every base and whatever their number, and zero is left. -/
theorem digits_roundtrip {d r base : Nat} (hbase : base < 2 ^ 64) (h2 : 2 ≤ base) (hdr : d ≠ r) {xs : List (Nat × Grant)} (hx : ∀ p ∈ xs, p.1 < base) {gs : List Grant} (hn : gs.length = xs.length)
    (hg : ∀ g ∈ gs, g.obj r = true) {S S1 S2 : Store} {ds : List Nat} (hw : Wf (S d)) (hp : (S d).plus = true) (hz : value (S d) = 0) (e1 : build d base S xs = some (S1, .ok))
    (e2 : takeApart d r base S1 gs = some (S2, .ok, ds)) : ds.reverse = xs.map (·.1) ∧ value (S2 d) = 0 := by
  obtain ⟨S', c, a1, _, a3, _, a5, _, _⟩ := build_correct hbase xs hw hp (v := 0) hz (fun p h => Nat.lt_trans (hx p h) hbase)
  rw [a1] at e1
  cases e1
  obtain ⟨S'', c', ds', b1, _, b3, _, _⟩ := takeApart_correct (r := r) hbase (by omega) hdr gs a3 (a5 rfl) hg
  rw [b1] at e2
  cases e2
  obtain ⟨c1, c2, _⟩ := b3 rfl
  have := digits_number (base := base) (xs.map (·.1)).reverse 0 (by
    intro x h
    rw [List.mem_reverse, List.mem_map] at h
    obtain ⟨p, hp, rfl⟩ := h
    exact hx p hp)
  rw [List.reverse_reverse, List.length_reverse, List.length_map] at this
  rw [hn] at c1 c2
  exact ⟨by rw [c1, this.1, List.reverse_reverse], by rw [c2]; exact_mod_cast congrArg (fun n : Nat => (n : Int)) this.2⟩

/-- 28 decimal digits, more than one limb holds, there and back. -/
example : ((build 0 10 (fun _ => init) ("1234567890123456789098765432".toList.map fun c => (c.toNat - 48, generous))).bind fun s =>
    (takeApart 0 1 10 s.1 (List.replicate 28 generous)).map fun t => ((s.1 0).limbs.length, t.2.1, t.2.2.reverse)) =
    some (2, .ok, "1234567890123456789098765432".toList.map fun c => c.toNat - 48) := by decide +kernel

end Bfdev.Mpi.Digits

import Verif.Tokenbucket.Model

/-!
# Token bucket: properties (C35, C70)
-/

namespace Bfdev.Tokenbucket

/-! ## Specification -/

/-- The times of a history never decrease, starting from `t0`. -/
def Rising (t0 : Int) : List Op → Prop
  | [] => True
  | o :: os => t0 ≤ o.time ∧ Rising o.time os

instance decRising : (t0 : Int) → (ops : List Op) → Decidable (Rising t0 ops)
  | _, [] => isTrue trivial
  | _, o :: os => @instDecidableAnd _ _ _ (decRising o.time os)

/-- The number of granted requests. -/
def granted (out : List Bool) : Nat := out.count true

/-! ## Proof -/

/-- The state after a step at time `t`: `e` is the last refill instant not later than `t`; the stored mark
may lag behind it by whole multiples of 2^32 intervals, because the number of new tokens is cut to 32 bits. -/
structure Inv (b : Bucket) (t e : Int) : Prop where
  ipos : 0 < b.interval
  last : 0 < b.last
  cur : b.current ≤ b.capacity
  lag : ∃ k : Nat, e = b.last + (k : Int) * (2 ^ 32 * b.interval)
  le : e ≤ t
  lt : t < e + b.interval
  top : t < 2 ^ 63

theorem i64_some {x : Int} (h1 : -(2 ^ 63) ≤ x) (h2 : x < 2 ^ 63) : i64 x = some x := by
  unfold i64; rw [if_pos ⟨h1, h2⟩]

/-- Arithmetic of one refill. -/
theorem refill_arith {I L t : Int} (hI : 0 < I) (hL : 0 < L) (hLt : L ≤ t) (ht : t < 2 ^ 63) :
    let q := (t - L) / I
    let g : Nat := (q % 2 ^ 32).toNat
    i64 (t - L) = some (t - L) ∧ (t - L).tdiv I = q ∧ i64 q = some q ∧ i64 (g * I) = some (g * I) ∧
      i64 (g * I + L) = some (g * I + L) ∧ 0 ≤ q ∧ g * I + L ≤ t ∧ (g : Int) = q % 2 ^ 32 := by
  intro q g
  have h0 : 0 ≤ t - L := by omega
  have hq0 : 0 ≤ q := Int.ediv_nonneg h0 (by omega)
  have hqI : q * I ≤ t - L := by
    have := Int.mul_ediv_add_emod (t - L) I
    have h2 := Int.emod_nonneg (t - L) (b := I) (by omega)
    have h3 : I * ((t - L) / I) = q * I := Int.mul_comm _ _
    omega
  have hqle : q ≤ t - L := by
    have : q * 1 ≤ q * I := Int.mul_le_mul_of_nonneg_left (by omega) hq0
    omega
  have hg : (g : Int) = q % 2 ^ 32 := Int.toNat_of_nonneg (Int.emod_nonneg _ (by omega))
  have hgq : (g : Int) ≤ q := by omega
  have hgI : (g : Int) * I ≤ q * I := Int.mul_le_mul_of_nonneg_right hgq (by omega)
  have hgI0 : 0 ≤ (g : Int) * I := Int.mul_nonneg (by omega) (by omega)
  refine ⟨i64_some (by omega) (by omega), Int.tdiv_eq_ediv_of_nonneg h0, i64_some (by omega) (by omega),
    i64_some (by omega) (by omega), i64_some (by omega) (by omega), hq0, by omega, hg⟩

/-- The state after a refill, in closed form. -/
theorem refill_eq {b : Bucket} {t : Int} (hI : 0 < b.interval) (hL : 0 < b.last) (hLt : b.last ≤ t) (ht : t < 2 ^ 63) :
    refill b t = some { b with
      last := (((t - b.last) / b.interval % 2 ^ 32).toNat : Int) * b.interval + b.last,
      current := min ((b.current + ((t - b.last) / b.interval % 2 ^ 32).toNat) % 2 ^ 32) b.capacity } := by
  obtain ⟨h1, h2, h3, h4, h5, -, -, -⟩ := refill_arith hI hL hLt ht
  simp only [refill, h1, h2, h3, h4, h5, Option.bind_eq_bind, Option.bind_some]

/-- One refill advances the refill instant by `d` intervals and adds at most `d` tokens. -/
theorem refill_inv {b : Bucket} {t0 e t : Int} (h : Inv b t0 e) (h01 : t0 ≤ t) (ht : t < 2 ^ 63) :
    ∃ b' e' : _, refill b t = some b' ∧ Inv b' t e' ∧ b'.interval = b.interval ∧ b'.capacity = b.capacity ∧
      e ≤ e' ∧ (b'.current : Int) * b.interval ≤ b.current * b.interval + (e' - e) ∧
      b'.passed = b.passed ∧ b'.missed = b.missed := by
  obtain ⟨hI, hL, hc, ⟨k, hk⟩, hle, hlt, htop⟩ := h
  have hkI : 0 ≤ (k : Int) * (2 ^ 32 * b.interval) := Int.mul_nonneg (by omega) (by omega)
  have hLt : b.last ≤ t := by omega
  obtain ⟨-, -, -, -, -, hq0, hlt', hg⟩ := refill_arith hI hL hLt ht
  rw [refill_eq hI hL hLt ht]
  revert hq0 hlt' hg
  generalize hq : (t - b.last) / b.interval = q
  generalize hgd : (q % 2 ^ 32).toNat = g
  intro hq0 hlt' hg
  -- the number of intervals since `e`
  have hqI : q * b.interval ≤ t - b.last ∧ t - b.last < q * b.interval + b.interval := by
    have h1 := Int.mul_ediv_add_emod (t - b.last) b.interval
    have h2 := Int.emod_nonneg (t - b.last) (b := b.interval) (by omega)
    have h3 := Int.emod_lt_of_pos (t - b.last) hI
    rw [hq, Int.mul_comm] at h1
    omega
  have hd0 : (k : Int) * 2 ^ 32 ≤ q := by
    refine Int.le_of_lt_add_one (Int.lt_of_mul_lt_mul_right (a := b.interval) ?_ (by omega))
    have e1 : (k : Int) * 2 ^ 32 * b.interval = (k : Int) * (2 ^ 32 * b.interval) := by rw [Int.mul_assoc]
    have e2 : (q + 1) * b.interval = q * b.interval + b.interval := by rw [Int.add_mul, Int.one_mul]
    omega
  have hgd' : (g : Int) ≤ q - k * 2 ^ 32 := by omega
  refine ⟨_, b.last + q * b.interval, rfl, ⟨hI, ?_, Nat.min_le_right _ _, ?_, by omega, by show t < _ + b.interval; omega, ht⟩,
    rfl, rfl, ?_, ?_, rfl, rfl⟩
  · show 0 < (g : Int) * b.interval + b.last
    have : 0 ≤ (g : Int) * b.interval := Int.mul_nonneg (by omega) (by omega)
    omega
  · refine ⟨(q / 2 ^ 32).toNat, ?_⟩
    show b.last + q * b.interval = (g : Int) * b.interval + b.last + ((q / 2 ^ 32).toNat : Int) * (2 ^ 32 * b.interval)
    have e1 : ((q / 2 ^ 32).toNat : Int) = q / 2 ^ 32 := Int.toNat_of_nonneg (by omega)
    have e2 : q = (g : Int) + q / 2 ^ 32 * 2 ^ 32 := by omega
    have e3 : q * b.interval = (g : Int) * b.interval + q / 2 ^ 32 * (2 ^ 32 * b.interval) := by
      rw [← Int.mul_assoc, ← Int.add_mul, ← e2]
    rw [e1]; omega
  · have e1 : (k : Int) * 2 ^ 32 * b.interval ≤ q * b.interval := Int.mul_le_mul_of_nonneg_right hd0 (by omega)
    rw [Int.mul_assoc] at e1
    omega
  · show ((min ((b.current + g) % 2 ^ 32) b.capacity : Nat) : Int) * b.interval ≤ _
    have h1 : ((min ((b.current + g) % 2 ^ 32) b.capacity : Nat) : Int) ≤ (b.current : Int) + (q - k * 2 ^ 32) := by omega
    have h2 := Int.mul_le_mul_of_nonneg_right h1 (c := b.interval) (by omega)
    have e1 : ((b.current : Int) + (q - k * 2 ^ 32)) * b.interval =
        b.current * b.interval + (q * b.interval - k * (2 ^ 32 * b.interval)) := by
      rw [Int.add_mul, Int.sub_mul, Int.mul_assoc (k : Int)]
    omega

/-- One request keeps the invariant; a grant costs one interval's worth of potential. -/
theorem request_inv {b : Bucket} {t0 e t : Int} (h : Inv b t0 e) (h01 : t0 ≤ t) (ht : t < 2 ^ 63) :
    ∃ b' e' r, request b t = some (b', r) ∧ Inv b' t e' ∧ b'.interval = b.interval ∧ b'.capacity = b.capacity ∧ e ≤ e' ∧
      ((b'.current : Int) + (if r then 1 else 0)) * b.interval ≤ b.current * b.interval + (e' - e) ∧
      ((b'.current : Int) + (if r then 1 else 0)) ≤ b.capacity := by
  obtain ⟨b1, e1, hr, hi, k1, k2, k3, k4, -, -⟩ := refill_inv h h01 ht
  have hs : start b t = b := by unfold start; rw [if_neg (by have := h.last; omega)]
  unfold request
  rw [if_neg (by have := h.ipos; omega), hs, hr]
  simp only [Option.bind_eq_bind, Option.bind_some]
  obtain ⟨a1, a2, a3, a4, a5, a6, a7⟩ := hi
  by_cases hc : b1.current = 0
  · rw [if_pos hc]
    refine ⟨_, e1, false, rfl, ⟨a1, a2, a3, a4, a5, a6, a7⟩, k1, k2, k3, ?_, ?_⟩
    · simpa using k4
    · simp only [Bool.false_eq_true, if_false]; omega
  · rw [if_neg hc]
    refine ⟨_, e1, true, rfl, ⟨a1, a2, by show b1.current - 1 ≤ b1.capacity; omega, a4, a5, a6, a7⟩, k1, k2, k3, ?_, ?_⟩
    · show (((b1.current - 1 : Nat) : Int) + (if true = true then 1 else 0)) * b.interval ≤ _
      have : (((b1.current - 1 : Nat) : Int) + (if true = true then 1 else 0)) = b1.current := by
        simp only [if_true]; omega
      rw [this]; exact k4
    · show (((b1.current - 1 : Nat) : Int) + (if true = true then 1 else 0)) ≤ _
      simp only [if_true]; omega

/-- A history from a started bucket: the tokens granted and left are paid for. -/
theorem run_inv : ∀ (ops : List Op) {b : Bucket} {t0 e : Int}, Inv b t0 e → Rising t0 ops →
    (∀ o ∈ ops, o.time < 2 ^ 63) →
    ∃ b' out e' t', run b ops = some (b', out) ∧ Inv b' t' e' ∧ t0 ≤ t' ∧ (∀ u, t0 ≤ u → (∀ o ∈ ops, o.time ≤ u) → t' ≤ u) ∧
      (∀ ops2, Rising t0 (ops ++ ops2) → Rising t' ops2) ∧
      b'.interval = b.interval ∧ b'.capacity = b.capacity ∧
      ((b'.current : Int) + granted out) * b.interval ≤ b.current * b.interval + (e' - e)
  | [], b, t0, e, h, _, _ => ⟨b, [], e, t0, rfl, h, Int.le_refl _, fun u hu _ => hu, fun _ h => h, rfl, rfl, by simp [granted]⟩
  | .upd t :: ops, b, t0, e, h, hr, ht => by
    have h01 : t0 ≤ t := hr.1
    have htt : t < 2 ^ 63 := ht (.upd t) List.mem_cons_self
    obtain ⟨a1, a2, a3, ⟨k, a4⟩, a5, a6, a7⟩ := h
    have hkI : 0 ≤ (k : Int) * (2 ^ 32 * b.interval) := Int.mul_nonneg (by omega) (by omega)
    have h' : Inv (update b t) t t := ⟨a1, by show 0 < t; omega, a3, ⟨0, by show t = t + _; simp⟩, Int.le_refl _, by show t < t + b.interval; omega, htt⟩
    obtain ⟨b', out, e', t', c1, c2, c3, c4, c5, c6, c7, c8⟩ := run_inv ops h' hr.2 (fun o ho => ht o (List.mem_cons_of_mem _ ho))
    refine ⟨b', out, e', t', c1, c2, by omega, ?_, fun ops2 hh => c5 ops2 hh.2, c6, c7, ?_⟩
    · intro u _ hu2
      exact c4 u (hu2 (.upd t) List.mem_cons_self) (fun o ho => hu2 o (List.mem_cons_of_mem _ ho))
    · simp only [update] at c8
      omega
  | .req t :: ops, b, t0, e, h, hr, ht => by
    have h01 : t0 ≤ t := hr.1
    obtain ⟨b1, e1, r, d1, d2, d3, d4, d5, d6, -⟩ := request_inv h h01 (ht (.req t) List.mem_cons_self)
    obtain ⟨b', out, e', t', c1, c2, c3, c4, c5, c6, c7, c8⟩ := run_inv ops d2 hr.2 (fun o ho => ht o (List.mem_cons_of_mem _ ho))
    refine ⟨b', r :: out, e', t', ?_, c2, by omega, ?_, fun ops2 hh => c5 ops2 hh.2, by rw [c6, d3], by rw [c7, d4], ?_⟩
    · simp only [run, d1, c1, Option.bind_eq_bind, Option.bind_some]
    · intro u _ hu2
      exact c4 u (hu2 (.req t) List.mem_cons_self) (fun o ho => hu2 o (List.mem_cons_of_mem _ ho))
    · rw [d3] at c8
      have hg : (granted (r :: out) : Int) = (if r then 1 else 0) + granted out := by
        cases r <;> simp [granted]
        omega
      rw [hg]
      simp only [Int.add_mul] at c8 d6 ⊢
      omega

/-- The first refill of a fresh bucket. -/
theorem start_inv {b : Bucket} {t : Int} (hI : 0 < b.interval) (hf : b.last = 0) (ht0 : 0 < t) (ht : t < 2 ^ 63) :
    Inv (start b t) t t ∧ (start b t).interval = b.interval ∧ (start b t).capacity = b.capacity ∧ start (start b t) t = start b t := by
  unfold start
  rw [if_pos hf]
  refine ⟨⟨hI, ht0, Nat.le_refl _, ⟨0, by simp⟩, Int.le_refl _, by show t < t + b.interval; omega, ht⟩, rfl, rfl, ?_⟩
  rw [if_neg (by show ¬t = 0; omega)]

/-- A bucket that has just been initialised, or that satisfies the invariant. -/
def Good (b : Bucket) (t : Int) : Prop := 0 < b.interval ∧ (b.last = 0 ∨ ∃ e, Inv b t e) ∧ b.current ≤ b.capacity

theorem request_good {b : Bucket} {t0 t : Int} (h : Good b t0) (h01 : t0 ≤ t) (ht0 : 0 < t) (ht : t < 2 ^ 63) :
    ∃ b' e' r, request b t = some (b', r) ∧ Inv b' t e' ∧ b'.interval = b.interval ∧ b'.capacity = b.capacity ∧
      ((b'.current : Int) + (if r then 1 else 0)) ≤ b.capacity := by
  rcases h.2.1 with hf | ⟨e, he⟩
  · obtain ⟨s1, s2, s3, s4⟩ := start_inv h.1 hf ht0 ht
    obtain ⟨b', e', r, d1, d2, d3, d4, -, -, d7⟩ := request_inv s1 (Int.le_refl t) ht
    refine ⟨b', e', r, ?_, d2, by rw [d3, s2], by rw [d4, s3], by rw [s3] at d7; exact d7⟩
    rw [← d1]
    have hne : ¬b.interval = 0 := by have := h.1; omega
    unfold request
    rw [s2, s4, if_neg hne, if_neg hne]
  · obtain ⟨b', e', r, d1, d2, d3, d4, -, -, d7⟩ := request_inv he h01 ht
    exact ⟨b', e', r, d1, d2, d3, d4, d7⟩

theorem run_good : ∀ (ops : List Op) {b : Bucket} {t0 : Int}, Good b t0 → Rising t0 ops →
    (∀ o ∈ ops, 0 < o.time ∧ o.time < 2 ^ 63) →
    ∃ b' out t', run b ops = some (b', out) ∧ Good b' t' ∧ t0 ≤ t' ∧ (∀ ops2, Rising t0 (ops ++ ops2) → Rising t' ops2) ∧
      b'.interval = b.interval ∧ b'.capacity = b.capacity
  | [], b, t0, h, _, _ => ⟨b, [], t0, rfl, h, Int.le_refl _, fun _ h => h, rfl, rfl⟩
  | .upd t :: ops, b, t0, h, hr, ht => by
    have hb := ht (.upd t) List.mem_cons_self
    have h' : Good (update b t) t := ⟨h.1, Or.inr ⟨t, ⟨h.1, hb.1, h.2.2, ⟨0, by show t = t + _; simp⟩, Int.le_refl _,
      by show t < t + b.interval; have := h.1; omega, hb.2⟩⟩, h.2.2⟩
    obtain ⟨b', out, t', c1, c2, c3, c4, c5, c6⟩ := run_good ops h' hr.2 (fun o ho => ht o (List.mem_cons_of_mem _ ho))
    exact ⟨b', out, t', c1, c2, Int.le_trans hr.1 c3, fun ops2 hh => c4 ops2 hh.2, c5, c6⟩
  | .req t :: ops, b, t0, h, hr, ht => by
    have hb : 0 < t ∧ t < 2 ^ 63 := ht (.req t) List.mem_cons_self
    obtain ⟨b1, e1, r, d1, d2, d3, d4, -⟩ := request_good (t := t) h hr.1 hb.1 hb.2
    have h' : Good b1 t := ⟨d2.ipos, Or.inr ⟨e1, d2⟩, d2.cur⟩
    obtain ⟨b', out, t', c1, c2, c3, c4, c5, c6⟩ := run_good ops h' hr.2 (fun o ho => ht o (List.mem_cons_of_mem _ ho))
    refine ⟨b', r :: out, t', ?_, c2, Int.le_trans hr.1 c3, fun ops2 hh => c4 ops2 hh.2, by rw [c5, d3], by rw [c6, d4]⟩
    simp only [run, d1, c1, Option.bind_eq_bind, Option.bind_some]

/-! ## Theorems -/

/-- **C35, partial.** Take any history of requests and updates of a new bucket at positive, non-decreasing times, and any window of
it that opens with a request at time `s` and whose steps are not later than `u`.  No operation overflows, and the
window grants at most the capacity plus one token per refill interval begun in it.
Missing: a clock that starts at zero, for which the claim is false (`tokenbucket_zero_violated`). -/
theorem tokenbucket_bound_partial (interval : Int) (capacity : Nat) (before window : List Op) (s u : Int)
    (hI : 0 < interval)
    (hrise : Rising 1 (before ++ .req s :: window))
    (hu : ∀ o ∈ Op.req s :: window, o.time ≤ u) (hmax : u < 2 ^ 63) :
    ∃ b out0 b' out, run (init interval capacity) before = some (b, out0) ∧
      run b (.req s :: window) = some (b', out) ∧
      (granted out : Int) ≤ capacity + (u - s + interval - 1) / interval := by
  have rise_lo : ∀ (ops : List Op) (t : Int), Rising t ops → ∀ o ∈ ops, t ≤ o.time := by
    intro ops
    induction ops with
    | nil => intro t _ o ho; simp at ho
    | cons a ops ih =>
      intro t h o ho
      rcases List.mem_cons.1 ho with rfl | ho
      · exact h.1
      · exact Int.le_trans h.1 (ih _ h.2 o ho)
  have rise_app : ∀ (ops : List Op) (t : Int) (x : Op) (w : List Op), Rising t (ops ++ x :: w) →
      Rising t ops ∧ ∀ o ∈ ops, o.time ≤ x.time := by
    intro ops
    induction ops with
    | nil => intro t x w _; exact ⟨trivial, by simp⟩
    | cons a ops ih =>
      intro t x w h
      obtain ⟨h1, h2⟩ := ih _ x w h.2
      refine ⟨⟨h.1, h1⟩, ?_⟩
      intro o ho
      rcases List.mem_cons.1 ho with rfl | ho
      · exact rise_lo _ _ h.2 x (by simp)
      · exact h2 o ho
  obtain ⟨p1, p2⟩ := rise_app before 1 (.req s) window hrise
  have hsu : s ≤ u := hu (.req s) List.mem_cons_self
  have plo := rise_lo before 1 p1
  obtain ⟨b, out0, t', c1, c2, c3, c4, c5, c6⟩ := run_good before (b := init interval capacity) (t0 := 1)
    ⟨hI, Or.inl rfl, Nat.zero_le _⟩ p1 (fun o ho => ⟨by have := plo o ho; omega, by have h1 : o.time ≤ s := p2 o ho; omega⟩)
  have hr2 := c4 _ hrise
  have hs0 : 0 < s := by have := hr2.1; simp only [Op.time] at this; omega
  obtain ⟨b1, e1, r, d1, d2, d3, d4, d5⟩ := request_good (t := s) c2 hr2.1 hs0 (by show s < _; omega)
  obtain ⟨b', out, e', t2, g1, g2, g3, g4, -, -, -, g8⟩ := run_inv window d2 hr2.2
    (fun o ho => by have := hu o (List.mem_cons_of_mem _ ho); omega)
  refine ⟨b, out0, b', r :: out, c1, ?_, ?_⟩
  · show (request b s).bind _ = _
    rw [d1]; simp only [Option.bind_some, g1, Option.bind_eq_bind]
  · have ht2 : t2 ≤ u := g4 u hsu (fun o ho => hu o (List.mem_cons_of_mem _ ho))
    have hg : (granted (r :: out) : Int) = (if r then 1 else 0) + granted out := by
      cases r <;> simp [granted]; omega
    have hi1 : b1.interval = interval := by rw [d3, c5]; rfl
    have hcap : b.capacity = capacity := by rw [c6]; rfl
    obtain ⟨-, -, -, -, ge1, ge2, -⟩ := g2
    obtain ⟨-, -, -, -, fe1, fe2, -⟩ := d2
    rw [hi1] at g8 fe2
    have key : ((granted out : Int) - b1.current) * interval ≤ u - s + interval - 1 := by
      have h1 : 0 ≤ (b'.current : Int) * interval := Int.mul_nonneg (by omega) (by omega)
      rw [Int.add_mul] at g8
      rw [Int.sub_mul]
      omega
    have key2 : (granted out : Int) - b1.current ≤ (u - s + interval - 1) / interval := (Int.le_ediv_iff_mul_le hI).2 key
    rw [hg]
    rw [hcap] at d5
    omega

/-- A history that meets the hypotheses: capacity 2, interval 10, requests at 5, 6, 7, 20, 21. -/
example : ∃ b out0 b' out, run (init 10 2) [.req 5, .upd 6] = some (b, out0) ∧
    run b (.req 7 :: [.req 20, .req 21]) = some (b', out) ∧
    (granted out : Int) ≤ 2 + (21 - 7 + 10 - 1) / 10 :=
  tokenbucket_bound_partial 10 2 [.req 5, .upd 6] [.req 20, .req 21] 7 21 (by decide) (by decide) (by decide) (by decide)

/-- The bound is reached: five grants of capacity 3 in twenty time units of interval ten. -/
example : (run (init 10 3) [.req 5, .req 5, .req 5, .req 5, .req 15, .req 25]).map (·.2) =
    some [true, true, true, false, true, true] := by decide +kernel

/-- **C35 is violated when the clock starts at zero:** a stored time of zero is taken for a bucket that was never used, so each
request at time zero fills the bucket again; a bucket of capacity one grants every one of any number of simultaneous requests. -/
theorem tokenbucket_zero_violated (n : Nat) : ∃ b', run (init 10 1) (List.replicate n (.req 0)) = some (b', List.replicate n true) := by
  have key : ∀ n (b : Bucket), b.interval = 10 → b.capacity = 1 → b.last = 0 →
      ∃ b', run b (List.replicate n (.req 0)) = some (b', List.replicate n true) := by
    intro n
    induction n with
    | zero => intro b _ _ _; exact ⟨b, rfl⟩
    | succ n ih =>
      intro b h1 h2 h3
      have hreq : request b 0 = some ({ b with current := 0, passed := (b.passed + 1) % 2 ^ 32, last := 0 }, true) := by
        have e1 : i64 0 = some 0 := by decide +kernel
        have e2 : Int.tdiv 0 10 = 0 := by decide +kernel
        simp [request, start, refill, h1, h2, h3, e1]
      obtain ⟨b', hb'⟩ := ih { b with current := 0, passed := (b.passed + 1) % 2 ^ 32, last := 0 } h1 h2 rfl
      refine ⟨b', ?_⟩
      simp only [List.replicate_succ, run, hreq, hb', Option.bind_eq_bind, Option.bind_some]
  exact key n _ rfl rfl rfl

/-- **C70, partial.** A request made at least one interval after the last refill instant is granted, provided that the tokens held
plus the intervals elapsed stay below 2^32.
Missing: longer idle times (`tokenbucket_idle_violated`). -/
theorem tokenbucket_overdue_partial (b : Bucket) (t : Int) (hI : 0 < b.interval) (hc : 0 < b.capacity)
    (hl : 0 < b.last) (hover : b.last + b.interval ≤ t) (ht : t < 2 ^ 63)
    (hfit : b.current + (t - b.last) / b.interval < 2 ^ 32) :
    ∃ b', request b t = some (b', true) := by
  have hq : 0 < (t - b.last) / b.interval := (Int.le_ediv_iff_mul_le hI).2 (by omega)
  have hs : start b t = b := by unfold start; rw [if_neg (by omega)]
  unfold request
  rw [if_neg (by omega), hs, refill_eq hI hl (by omega) ht]
  simp only [Option.bind_eq_bind, Option.bind_some]
  rw [if_neg]
  · exact ⟨_, rfl⟩
  · omega

example : ∃ b', request ⟨10, 2, 100, 0, 0, 0⟩ 110 = some (b', true) :=
  tokenbucket_overdue_partial _ _ (by decide) (by decide) (by decide) (by decide) (by decide) (by decide)

/-- **C70 is violated after a long idle time:** one token held plus 2^32 - 1 owed wrap to none, and the request is refused. -/
theorem tokenbucket_idle_violated :
    (request ⟨1, 5, 1, 1, 0, 0⟩ (2 ^ 32)).map (·.2) = some false := by decide +kernel

/-- Requests are counted: with the counters below 2^32, `passed` grows with each grant and `missed` with each refusal. -/
theorem tokenbucket_counted (b b' : Bucket) (t : Int) (r : Bool) (hI : b.interval ≠ 0)
    (hp : b.passed + 1 < 2 ^ 32) (hm : b.missed + 1 < 2 ^ 32) (h : request b t = some (b', r)) :
    b'.passed = b.passed + (if r then 1 else 0) ∧ b'.missed = b.missed + (if r then 0 else 1) := by
  unfold request at h
  rw [if_neg hI] at h
  have hst : (start b t).passed = b.passed ∧ (start b t).missed = b.missed := by
    unfold start; split <;> exact ⟨rfl, rfl⟩
  cases hr : refill (start b t) t with
  | none => rw [hr] at h; simp at h
  | some b1 =>
    have hrf : b1.passed = b.passed ∧ b1.missed = b.missed := by
      unfold refill at hr
      simp only [Option.bind_eq_bind, Option.bind_eq_some_iff] at hr
      obtain ⟨_, _, _, _, _, _, _, _, hr⟩ := hr
      simp only [Option.some.injEq] at hr
      subst hr
      exact hst
    rw [hr] at h
    simp only [Option.bind_eq_bind, Option.bind_some] at h
    split at h <;> simp only [Option.some.injEq, Prod.mk.injEq] at h <;> obtain ⟨rfl, rfl⟩ := h
    · simp [hrf.1, hrf.2, Nat.mod_eq_of_lt hm]
    · simp [hrf.1, hrf.2, Nat.mod_eq_of_lt hp]

/-- C35: an interval of zero turns the limiter off: every request is granted and nothing changes. -/
theorem tokenbucket_off (b : Bucket) (t : Int) (h : b.interval = 0) : request b t = some (b, true) := by
  unfold request; rw [if_pos h]

end Bfdev.Tokenbucket

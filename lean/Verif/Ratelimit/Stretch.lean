import Verif.Ratelimit.Props
/-!
C136: what a rate limiter admits in any stretch of time, wherever its own windows begin.
-/
namespace Bfdev.Ratelimit

/-- How many windows after the first one begin in a stretch from `a` to `b`. -/
def more (I a b : Int) : Nat := (b - a).toNat / (I.toNat + 1)

theorem more_anti {I a a' b : Int} (h : a ≤ a') : more I a' b ≤ more I a b := Nat.div_le_div_right (by omega)

theorem more_turn {I a a' b : Int} (hI : 0 < I) (h : a + I < a') (hb : a' ≤ b) : more I a' b + 1 ≤ more I a b := by
  unfold more
  rw [← Nat.add_div_right _ (Nat.succ_pos _)]
  exact Nat.div_le_div_right (by omega)

/-- One call. -/
theorem request_cases {l : Limit} {t : Int} (hI : 0 < l.interval) (hb : l.burst < 2 ^ 32) {r : Limit × Bool} (h : request l t = some r) :
    ∃ l2, (l2 = enter l t ∨ ((enter l t).begin + l.interval < t ∧ l2 = { enter l t with begin := t, passed := 0 })) ∧
      r.1.interval = l.interval ∧ r.1.burst = l.burst ∧ r.1.begin = l2.begin ∧ l2.burst = l.burst ∧
      ((l2.passed < l2.burst ∧ r.2 = true ∧ r.1.passed = l2.passed + 1) ∨ (l2.burst ≤ l2.passed ∧ r.2 = false ∧ r.1.passed = l2.passed)) := by
  unfold request at h
  rw [if_neg (by omega)] at h
  obtain ⟨l2, h1, h2⟩ := Option.map_eq_some_iff.1 h
  have he : (enter l t).interval = l.interval ∧ (enter l t).burst = l.burst := by unfold enter; split <;> exact ⟨rfl, rfl⟩
  unfold turn at h1
  dsimp only at h1
  rw [timeAfter_eq, he.1] at h1
  split at h1
  · have h1 := Option.some.inj h1
    have hl : (l2 = enter l t ∨ ((enter l t).begin + l.interval < t ∧ l2 = { enter l t with begin := t, passed := 0 })) := by
      split at h1
      · rename_i hh
        refine Or.inr ⟨of_decide_eq_true hh, ?_⟩
        rw [← h1, ← he.1]
      · exact Or.inl h1.symm
    have hf : l2.interval = l.interval ∧ l2.burst = l.burst := by
      rcases hl with rfl | ⟨-, rfl⟩
      · exact he
      · exact he
    refine ⟨l2, hl, ?_⟩
    unfold admit at h2
    split at h2
    · rename_i hh
      subst h2
      exact ⟨hf.1, hf.2, rfl, hf.2, Or.inl ⟨hh, rfl, Nat.mod_eq_of_lt (by have := hf.2; omega)⟩⟩
    · rename_i hh
      subst h2
      exact ⟨hf.1, hf.2, rfl, hf.2, Or.inr ⟨Nat.not_lt.1 hh, rfl, rfl⟩⟩
  · cases h1

theorem run_cons {l l' : Limit} {t : Int} {ts : List Int} {out : List Bool} (h : run l (t :: ts) = some (l', out)) :
    ∃ r out', request l t = some r ∧ run r.1 ts = some (l', out') ∧ out = r.2 :: out' := by
  rw [run] at h
  obtain ⟨r, h1, h2⟩ := Option.bind_eq_some_iff.1 h
  obtain ⟨s, h3, h4⟩ := Option.bind_eq_some_iff.1 h2
  cases h4
  exact ⟨r, s.2, h1, h3, rfl⟩

theorem enter_fields (l : Limit) (t : Int) : (enter l t).passed = l.passed ∧ (enter l t).interval = l.interval ∧ (enter l t).burst = l.burst ∧
    ((enter l t).begin = l.begin ∨ (l.begin = 0 ∧ (enter l t).begin = t)) := by
  unfold enter
  split
  · rename_i h; exact ⟨rfl, rfl, rfl, Or.inr ⟨h, rfl⟩⟩
  · exact ⟨rfl, rfl, rfl, Or.inl rfl⟩

/-- From a known beginning of the window. -/
theorem run_from {T : Int} : ∀ (ts : List Int) (l l' : Limit) (out : List Bool), 0 < l.interval → l.burst < 2 ^ 32 → (∀ t ∈ ts, 0 ≤ t ∧ t ≤ T) → l.passed ≤ l.burst →
    run l ts = some (l', out) → out.count true + l.passed ≤ l.burst * (more l.interval l.begin T + 1)
  | [], l, l', out, hI, hb, ht, hp, h => by
    cases h
    rw [List.count_nil, Nat.zero_add]
    exact Nat.le_trans hp (Nat.le_mul_of_pos_right _ (Nat.succ_pos _))
  | t :: ts, l, l', out, hI, hb, ht, hp, h => by
    obtain ⟨r, out', h1, h2, rfl⟩ := run_cons h
    obtain ⟨t1, t2⟩ := ht t List.mem_cons_self
    obtain ⟨l2, c1, c2, c3, c4, c5, c6⟩ := request_cases hI hb h1
    obtain ⟨e1, e2, e3, e4⟩ := enter_fields l t
    have hp2 : l2.passed ≤ l2.burst := by
      rcases c1 with rfl | ⟨-, rfl⟩
      · rw [e1, c5]; exact hp
      · exact Nat.zero_le _
    have ih := run_from ts r.1 l' out' (by rw [c2]; exact hI) (by rw [c3]; exact hb) (fun t h => ht t (List.mem_cons_of_mem _ h))
      (by rw [c3, ← c5]; rcases c6 with ⟨d1, -, d3⟩ | ⟨-, -, d3⟩ <;> omega) h2
    rw [c2, c3, c4] at ih
    have hstep : (r.2 :: out').count true + l2.passed = out'.count true + r.1.passed := by
      rcases c6 with ⟨-, d2, d3⟩ | ⟨-, d2, d3⟩
      · rw [d2, d3, List.count_cons_self]; omega
      · rw [d2, d3, List.count_cons_of_ne (by decide)]
    rw [← hstep] at ih
    have hbeg : more l.interval (enter l t).begin T ≤ more l.interval l.begin T := more_anti (by rcases e4 with e | ⟨e, e'⟩ <;> omega)
    rcases c1 with rfl | ⟨d, rfl⟩
    · rw [e1] at ih
      exact Nat.le_trans ih (Nat.mul_le_mul_left _ (by omega))
    · have := more_turn hI d t2
      have h5 := Nat.mul_le_mul_left l.burst (show more l.interval t T + 1 + 1 ≤ more l.interval l.begin T + 1 by omega)
      rw [Nat.mul_add, Nat.mul_one] at h5
      dsimp only at ih
      omega

/-- From inside a window that began at any time. -/
theorem run_stretch {A T : Int} : ∀ (ts : List Int) (l l' : Limit) (out : List Bool), 0 < l.interval → l.burst < 2 ^ 32 → 0 ≤ A → (∀ t ∈ ts, A ≤ t ∧ t ≤ T) →
    l.passed ≤ l.burst → l.begin ≠ 0 → run l ts = some (l', out) → out.count true + l.passed ≤ l.burst * (more l.interval A T + 2)
  | [], l, l', out, hI, hb, hA, ht, hp, h0, h => by
    cases h
    rw [List.count_nil, Nat.zero_add]
    exact Nat.le_trans hp (Nat.le_mul_of_pos_right _ (Nat.succ_pos _))
  | t :: ts, l, l', out, hI, hb, hA, ht, hp, h0, h => by
    obtain ⟨r, out', h1, h2, rfl⟩ := run_cons h
    obtain ⟨t1, t2⟩ := ht t List.mem_cons_self
    obtain ⟨l2, c1, c2, c3, c4, c5, c6⟩ := request_cases hI hb h1
    have he : enter l t = l := if_neg h0
    rw [he] at c1
    have hstep : (r.2 :: out').count true + l2.passed = out'.count true + r.1.passed := by
      rcases c6 with ⟨-, d2, d3⟩ | ⟨-, d2, d3⟩
      · rw [d2, d3, List.count_cons_self]; omega
      · rw [d2, d3, List.count_cons_of_ne (by decide)]
    have hp2 : r.1.passed ≤ r.1.burst := by
      have : l2.passed ≤ l2.burst := by
        rcases c1 with rfl | ⟨-, rfl⟩
        · exact hp
        · exact Nat.zero_le _
      rw [c3, ← c5]; rcases c6 with ⟨d1, -, d3⟩ | ⟨-, -, d3⟩ <;> omega
    rcases c1 with rfl | ⟨-, rfl⟩
    · have ih := run_stretch ts r.1 l' out' (by rw [c2]; exact hI) (by rw [c3]; exact hb) hA (fun t h => ht t (List.mem_cons_of_mem _ h)) hp2 (by rw [c4]; exact h0) h2
      rw [c2, c3, ← hstep] at ih
      exact ih
    · have ih := run_from (T := T) ts r.1 l' out' (by rw [c2]; exact hI) (by rw [c3]; exact hb)
        (fun t h => by have := ht t (List.mem_cons_of_mem _ h); omega) hp2 h2
      rw [c2, c3, c4, ← hstep] at ih
      dsimp only at ih
      have h5 := Nat.mul_le_mul_left l.burst (show more l.interval t T + 1 + 1 ≤ more l.interval A T + 2 by have := more_anti (I := l.interval) (b := T) t1; omega)
      rw [Nat.mul_add, Nat.mul_one] at h5
      omega

theorem run_split : ∀ (pre mid : List Int) (l l' : Limit) (out : List Bool), run l (pre ++ mid) = some (l', out) →
    ∃ l1 out1, run l pre = some (l1, out1) ∧ run l1 mid = some (l', out.drop pre.length)
  | [], mid, l, l', out, h => ⟨l, [], rfl, h⟩
  | t :: pre, mid, l, l', out, h => by
    obtain ⟨r, out', h1, h2, rfl⟩ := run_cons h
    obtain ⟨l1, out1, h3, h4⟩ := run_split pre mid r.1 l' out' h2
    refine ⟨l1, r.2 :: out1, ?_, h4⟩
    rw [run, h1]
    show (run r.1 pre).bind _ = _
    rw [h3]; rfl

theorem run_state : ∀ (ts : List Int) (l l' : Limit) (out : List Bool), 0 < l.interval → l.burst < 2 ^ 32 → 1 ≤ l.burst → l.passed ≤ l.burst → (l.begin = 0 ∨ 1 ≤ l.passed) →
    run l ts = some (l', out) → l'.interval = l.interval ∧ l'.burst = l.burst ∧ l'.passed ≤ l'.burst ∧ (l'.begin = 0 ∨ 1 ≤ l'.passed)
  | [], l, l', out, _, _, _, hp, h0, h => by cases h; exact ⟨rfl, rfl, hp, h0⟩
  | t :: ts, l, l', out, hI, hb, hb1, hp, h0, h => by
    obtain ⟨r, out', h1, h2, rfl⟩ := run_cons h
    obtain ⟨l2, c1, c2, c3, c4, c5, c6⟩ := request_cases hI hb h1
    have hp2 : l2.passed ≤ l2.burst := by
      rcases c1 with rfl | ⟨-, rfl⟩
      · rw [(enter_fields l t).1, c5]; exact hp
      · exact Nat.zero_le _
    obtain ⟨i1, i2, i3, i4⟩ := run_state ts r.1 l' out' (by rw [c2]; exact hI) (by rw [c3]; exact hb) (by rw [c3]; exact hb1)
      (by rw [c3, ← c5]; rcases c6 with ⟨d1, -, d3⟩ | ⟨-, -, d3⟩ <;> omega) (Or.inr (by rcases c6 with ⟨d1, -, d3⟩ | ⟨d1, -, d3⟩ <;> omega)) h2
    exact ⟨i1.trans c2, i2.trans c3, i3, i4⟩

/-- **C136.** Of consecutive calls at times from `A` to `T`, whatever was called before, a limiter admits less than `burst` times the number
of intervals in between plus two. -/
theorem ratelimit_stretch (interval : Int) (burst : Nat) (hI : 0 < interval) (hb1 : 1 ≤ burst) (hb : burst < 2 ^ 32) (before calls : List Int) (A T : Int)
    (hA : 0 ≤ A) (ht : ∀ t ∈ calls, A ≤ t ∧ t ≤ T) {l : Limit} {out : List Bool} (h : run (init interval burst) (before ++ calls) = some (l, out)) :
    (out.drop before.length).count true < burst * ((T - A).toNat / (interval.toNat + 1) + 2) := by
  obtain ⟨l1, out1, h1, h2⟩ := run_split before calls _ l out h
  obtain ⟨i1, i2, i3, i4⟩ := run_state before (init interval burst) l1 out1 hI hb hb1 (Nat.zero_le _) (Or.inl rfl) h1
  have hpos : 0 < burst * ((T - A).toNat / (interval.toNat + 1) + 2) := Nat.mul_pos hb1 (Nat.succ_pos _)
  by_cases h0 : l1.begin = 0
  · cases calls with
    | nil =>
      have : out.drop before.length = [] := (congrArg Prod.snd (Option.some.inj h2)).symm
      rw [this]; exact hpos
    | cons t ts =>
      obtain ⟨t1, t2⟩ := ht t List.mem_cons_self
      have hen : run (enter l1 t) (t :: ts) = run l1 (t :: ts) := by
        have : request (enter l1 t) t = request l1 t := by
          have e : enter (enter l1 t) t = enter l1 t := by
            unfold enter
            rw [if_pos h0]
            dsimp only
            split <;> rfl
          unfold request
          rw [e, (enter_fields l1 t).2.1]
          rw [i1, if_neg (show ¬(init interval burst).interval = 0 by show ¬interval = 0; omega), if_neg (show ¬(init interval burst).interval = 0 by show ¬interval = 0; omega)]
        rw [run, run, this]
      have hbeg : (enter l1 t).begin = t := by unfold enter; rw [if_pos h0]
      obtain ⟨f1, f2, f3, -⟩ := enter_fields l1 t
      have := run_from (T := T) (t :: ts) (enter l1 t) l _ (by rw [f2, i1]; exact hI) (by rw [f3, i2]; exact hb) (fun s hs => by have := ht s hs; omega)
        (by rw [f1, f3]; exact i3) (hen.trans h2)
      rw [hbeg, f2, f3, i1, i2] at this
      have hm := more_anti (I := interval) (b := T) t1
      have h5 := Nat.mul_le_mul_left burst (show more interval t T + 1 + 1 ≤ (T - A).toNat / (interval.toNat + 1) + 2 by unfold more at *; omega)
      rw [Nat.mul_add, Nat.mul_one] at h5
      replace this : (out.drop before.length).count true + (enter l1 t).passed ≤ burst * (more interval t T + 1) := this
      omega
  · have := run_stretch calls l1 l _ (by rw [i1]; exact hI) (by rw [i2]; exact hb) hA ht i3 h0 h2
    rw [i1, i2] at this
    replace this : (out.drop before.length).count true + l1.passed ≤ burst * ((T - A).toNat / (interval.toNat + 1) + 2) := this
    have := i4.resolve_left h0
    omega

/-- **C136.** In any stretch of time no longer than the interval, less than `2 · burst` calls are admitted. -/
theorem ratelimit_sliding (interval : Int) (burst : Nat) (hI : 0 < interval) (hb1 : 1 ≤ burst) (hb : burst < 2 ^ 32) (before calls : List Int) (A : Int)
    (hA : 0 ≤ A) (ht : ∀ t ∈ calls, A ≤ t ∧ t ≤ A + interval) {l : Limit} {out : List Bool} (h : run (init interval burst) (before ++ calls) = some (l, out)) :
    (out.drop before.length).count true < 2 * burst := by
  have := ratelimit_stretch interval burst hI hb1 hb before calls A (A + interval) hA ht h
  rw [show (A + interval - A).toNat = interval.toNat by omega, Nat.div_eq_of_lt (Nat.lt_succ_self _), Nat.zero_add, Nat.mul_comm] at this
  exact this

/-- Not vacuous, and as sharp as it can be: an interval of 10 and a burst of 3, five calls admitted from 11 to 12. -/
example : (run (init 10 3) ([1] ++ [11, 11, 11, 12, 12, 12, 12])).map (fun r => r.2.drop 1) = some [true, true, false, true, true, true, false] := by decide

end Bfdev.Ratelimit

import Verif.Ratelimit.Model

/-!
# Rate limiter: properties (C36)
-/

namespace Bfdev.Ratelimit

/-! ## Specification -/

/-- The first window of a history and what follows it.  A window opens with a call at some time `t` and holds the calls up to the
first one later than `t + interval`.  Calls at time zero do not fix the opening time: the window then opens with the first call at
another time. -/
def window (interval : Int) : List Int → List Int × List Int
  | [] => ([], [])
  | t :: ts =>
    if t = 0 then (0 :: (window interval ts).1, (window interval ts).2)
    else (t :: ts.takeWhile (· ≤ t + interval), ts.dropWhile (· ≤ t + interval))

/-- What a limiter should answer in one window of `n` calls: yes to the first `burst` of them. -/
def answers (burst n : Nat) : List Bool := (List.range n).map (fun i => decide (i < burst))

theorem dropWhile_le {α : Type} (p : α → Bool) : ∀ l : List α, (l.dropWhile p).length ≤ l.length
  | [] => Nat.le_refl _
  | a :: l => by
    rw [List.dropWhile_cons]
    split
    · have := dropWhile_le p l; simp only [List.length_cons]; omega
    · exact Nat.le_refl _

theorem window_shorter (interval : Int) : ∀ ts : List Int, ts ≠ [] → (window interval ts).2.length < ts.length
  | [], h => absurd rfl h
  | t :: ts, _ => by
    unfold window
    split
    · by_cases h : ts = []
      · subst h; simp [window]
      · have := window_shorter interval ts h; simp only [List.length_cons]; omega
    · have := dropWhile_le (· ≤ t + interval) ts
      simp only [List.length_cons]; omega

/-- The windows of a history. -/
def windows (interval : Int) (ts : List Int) : List (List Int) :=
  if h : ts = [] then [] else (window interval ts).1 :: windows interval (window interval ts).2
termination_by ts.length
decreasing_by exact window_shorter interval ts h

/-! ## Proof -/

theorem window_append (interval : Int) : ∀ ts, (window interval ts).1 ++ (window interval ts).2 = ts
  | [] => rfl
  | t :: ts => by
    unfold window
    split
    · rename_i h; subst h; simp [window_append interval ts]
    · simp [List.takeWhile_append_dropWhile]

theorem windows_flatten (interval : Int) : ∀ (n : Nat) (ts : List Int), ts.length ≤ n → (windows interval ts).flatten = ts
  | n, [], _ => by unfold windows; simp
  | 0, t :: ts, h => by simp at h
  | n + 1, t :: ts, h => by
    have h2 := window_shorter interval (t :: ts) (by simp)
    unfold windows
    rw [dif_neg (by simp), List.flatten_cons, windows_flatten interval n _ (by simp only [List.length_cons] at h h2; omega), window_append]

theorem timeAfter_eq (a b : Int) : timeAfter a b = decide (b < a) := by
  unfold timeAfter
  rw [decide_eq_decide]
  split
  · omega
  · split <;> omega

/-- A step of the limiter inside a window. -/
def bump (l : Limit) : Limit × Bool :=
  if l.burst > l.passed then ({ l with passed := l.passed + 1 }, true)
  else ({ l with missed := (l.missed + 1) % 2 ^ 32 }, false)

theorem bump_eq {l : Limit} (hb : l.burst < 2 ^ 32) : admit l = bump l := by
  unfold bump admit
  split
  · rw [Nat.mod_eq_of_lt (by omega)]
  · rfl

/-- A request in an open window. -/
theorem request_in {l : Limit} {t : Int} (hI : 0 < l.interval) (hb : l.burst < 2 ^ 32) (h0 : l.begin ≠ 0)
    (hlo : -(2 ^ 63) ≤ l.begin + l.interval) (hhi : l.begin + l.interval < 2 ^ 63) (ht : t ≤ l.begin + l.interval) :
    request l t = some (bump l) := by
  unfold request enter turn
  rw [if_neg (by omega), if_neg h0]
  simp only [timeAfter_eq]
  rw [if_pos ⟨hlo, hhi⟩, if_neg (by simpa using ht), Option.map_some, bump_eq hb]

/-- A request of a limiter whose window has not opened. -/
theorem request_zero {l : Limit} {t : Int} (hI : 0 < l.interval) (hb : l.burst < 2 ^ 32) (h0 : l.begin = 0)
    (hlo : -(2 ^ 63) ≤ t + l.interval) (hhi : t + l.interval < 2 ^ 63) :
    request l t = some (bump { l with begin := t }) := by
  unfold request enter turn
  rw [if_neg (by omega), if_pos h0]
  simp only [timeAfter_eq]
  rw [if_pos ⟨hlo, hhi⟩, if_neg (by simp only [decide_eq_true_eq]; omega), Option.map_some, bump_eq (l := { l with begin := t }) hb]

/-- A request after the end of the window. -/
theorem request_new {l : Limit} {t : Int} (hI : 0 < l.interval) (hb : l.burst < 2 ^ 32) (h0 : l.begin ≠ 0)
    (hlo : -(2 ^ 63) ≤ l.begin + l.interval) (hhi : l.begin + l.interval < 2 ^ 63) (ht : l.begin + l.interval < t) :
    request l t = some (bump { l with begin := t, passed := 0 }) := by
  unfold request enter turn
  rw [if_neg (by omega), if_neg h0]
  simp only [timeAfter_eq]
  rw [if_pos ⟨hlo, hhi⟩, if_pos (by simpa using ht), Option.map_some, bump_eq (l := { l with begin := t, passed := 0 }) hb]

theorem bump_fields (l : Limit) : (bump l).1.interval = l.interval ∧ (bump l).1.burst = l.burst ∧ (bump l).1.begin = l.begin := by
  unfold bump; split <;> exact ⟨rfl, rfl, rfl⟩

/-- The state after one call. -/
def after (l : Limit) (r : Bool) : Limit :=
  if r then { l with passed := l.passed + 1 } else { l with missed := (l.missed + 1) % 2 ^ 32 }

/-- The answers of a window that has already admitted `p` calls. -/
def answersFrom (burst p n : Nat) : List Bool := (List.range n).map (fun i => decide (min p burst + i < burst))

theorem answersFrom_succ (burst p n : Nat) :
    answersFrom burst p (n + 1) = decide (p < burst) :: answersFrom burst (p + if p < burst then 1 else 0) n := by
  unfold answersFrom
  rw [List.range_succ_eq_map, List.map_cons, List.map_map]
  congr 1
  · rw [decide_eq_decide]; omega
  · apply List.map_congr_left
    intro i _
    simp only [Function.comp_apply]
    rw [decide_eq_decide]
    split <;> omega

theorem bump_snd (l : Limit) : (bump l).2 = decide (l.passed < l.burst) ∧
    (bump l).1.passed = l.passed + (if l.passed < l.burst then 1 else 0) ∧
    (bump l).1.missed = (if l.passed < l.burst then l.missed else (l.missed + 1) % 2 ^ 32) := by
  unfold bump
  by_cases h : l.passed < l.burst
  · rw [if_pos h]; simp [h]
  · rw [if_neg h]; simp [h]

/-- All calls of an open window. -/
theorem run_in : ∀ (ts : List Int) (l : Limit) (rest : List Int), 0 < l.interval → l.burst < 2 ^ 32 → l.begin ≠ 0 →
    -(2 ^ 63) ≤ l.begin + l.interval → l.begin + l.interval < 2 ^ 63 → l.missed < 2 ^ 32 → (∀ t ∈ ts, t ≤ l.begin + l.interval) →
    ∃ l', run l (ts ++ rest) = (run l' rest).map (fun s => (s.1, answersFrom l.burst l.passed ts.length ++ s.2)) ∧
      l'.interval = l.interval ∧ l'.burst = l.burst ∧ l'.begin = l.begin ∧ l'.missed < 2 ^ 32 ∧
      l'.missed = (l.missed + (answersFrom l.burst l.passed ts.length).count false) % 2 ^ 32
  | [], l, rest, _, _, _, _, _, hm, _ => ⟨l, by
      rw [List.nil_append]; cases h : run l rest <;> simp [answersFrom], rfl, rfl, rfl, hm, by simp [answersFrom, Nat.mod_eq_of_lt hm]⟩
  | t :: ts, l, rest, hI, hb, h0, hlo, hhi, hm, ht => by
    have hr := request_in hI hb h0 hlo hhi (ht t List.mem_cons_self)
    obtain ⟨f1, f2, f3⟩ := bump_fields l
    obtain ⟨g1, g2, g3⟩ := bump_snd l
    obtain ⟨l', k1, k2, k3, k4, k5, k6⟩ := run_in ts (bump l).1 rest (by omega) (by omega) (by omega) (by rw [f3, f1]; exact hlo)
      (by rw [f3, f1]; exact hhi) (by rw [g3]; split <;> omega) (by rw [f3, f1]; exact fun u hu => ht u (List.mem_cons_of_mem _ hu))
    refine ⟨l', ?_, by omega, by omega, by omega, k5, ?_⟩
    · rw [List.cons_append, run, hr]
      simp only [Option.bind_eq_bind, Option.bind_some]
      rw [k1, f2, g2, g1, List.length_cons, answersFrom_succ]
      cases h : run l' rest <;> simp
    · rw [k6, f2, g2, g3, List.length_cons, answersFrom_succ]
      by_cases hp : l.passed < l.burst
      · simp [hp]
      · simp only [hp, if_false, decide_false, List.count_cons_self, Nat.add_zero]
        omega

/-- A whole window of a limiter whose window has not opened. -/
theorem run_window (I : Int) (hI : 0 < I) : ∀ (ts : List Int) (l : Limit), l.interval = I → l.burst < 2 ^ 32 → l.begin = 0 →
    l.missed < 2 ^ 32 → (∀ t ∈ ts, -(2 ^ 63) ≤ t + I ∧ t + I < 2 ^ 63) →
    ∃ l', run l ts = (run l' (window I ts).2).map (fun s => (s.1, answersFrom l.burst l.passed (window I ts).1.length ++ s.2)) ∧
      l'.interval = I ∧ l'.burst = l.burst ∧ l'.missed < 2 ^ 32 ∧
      l'.missed = (l.missed + (answersFrom l.burst l.passed (window I ts).1.length).count false) % 2 ^ 32 ∧
      ((window I ts).2 = [] ∨ (l'.begin ≠ 0 ∧ (-(2 ^ 63) ≤ l'.begin + I ∧ l'.begin + I < 2 ^ 63) ∧
        ∀ u us, (window I ts).2 = u :: us → l'.begin + I < u))
  | [], l, hi, hb, h0, hm, _ => ⟨l, by simp [window, run, answersFrom], hi, rfl, hm, by simp [window, answersFrom, Nat.mod_eq_of_lt hm], Or.inl rfl⟩
  | t :: ts, l, hi, hb, h0, hm, ht => by
    have htt := ht t List.mem_cons_self
    have hr := request_zero (l := l) (t := t) (by omega) hb h0 (by rw [hi]; exact htt.1) (by rw [hi]; exact htt.2)
    obtain ⟨f1, f2, f3⟩ := bump_fields { l with begin := t }
    obtain ⟨g1, g2, g3⟩ := bump_snd { l with begin := t }
    simp only at f1 f2 f3 g1 g2 g3
    have hrun : ∀ (w r : List Int) (l' : Limit), run (bump { l with begin := t }).1 (ts) = (run l' r).map (fun s => (s.1, answersFrom l.burst (l.passed + if l.passed < l.burst then 1 else 0) w.length ++ s.2)) →
        run l (t :: ts) = (run l' r).map (fun s => (s.1, answersFrom l.burst l.passed (t :: w).length ++ s.2)) := by
      intro w r l' hk
      rw [run, hr]
      simp only [Option.bind_eq_bind, Option.bind_some]
      rw [hk, g1, List.length_cons, answersFrom_succ]
      cases h : run l' r <;> simp
    have hmiss : ∀ (w : List Int) (m : Nat), m = ((bump { l with begin := t }).1.missed + (answersFrom l.burst (l.passed + if l.passed < l.burst then 1 else 0) w.length).count false) % 2 ^ 32 →
        m = (l.missed + (answersFrom l.burst l.passed (t :: w).length).count false) % 2 ^ 32 := by
      intro w m hk
      rw [hk, g3, List.length_cons, answersFrom_succ]
      by_cases hp : l.passed < l.burst
      · simp [hp]
      · simp only [hp, if_false, decide_false, List.count_cons_self, Nat.add_zero]
        omega
    have hmb : (bump { l with begin := t }).1.missed < 2 ^ 32 := by rw [g3]; split <;> omega
    by_cases h : t = 0
    · obtain ⟨l', k1, k2, k3, k4, k5, k6⟩ := run_window I hI ts (bump { l with begin := t }).1 (by omega) (by omega) (by omega) hmb
        (fun u hu => ht u (List.mem_cons_of_mem _ hu))
      rw [f2, g2] at k1 k5
      have hw : window I (t :: ts) = (t :: (window I ts).1, (window I ts).2) := by
        rw [window, if_pos h, h]
      rw [hw]
      exact ⟨l', hrun _ _ _ k1, k2, by omega, k4, hmiss _ _ k5, k6⟩
    · have hw : window I (t :: ts) = (t :: ts.takeWhile (· ≤ t + I), ts.dropWhile (· ≤ t + I)) := by
        rw [window, if_neg h]
      rw [hw]
      obtain ⟨l', k1, k2, k3, k4, k5, k6⟩ := run_in (ts.takeWhile (· ≤ t + I)) (bump { l with begin := t }).1
        (ts.dropWhile (· ≤ t + I)) (by omega) (by omega) (by omega) (by rw [f3, f1, hi]; exact htt.1) (by rw [f3, f1, hi]; exact htt.2)
        hmb (by
          intro u hu
          have hall := List.all_takeWhile (p := fun u : Int => decide (u ≤ t + I)) (l := ts)
          rw [List.all_eq_true] at hall
          have := hall u hu
          rw [f3, f1, hi]; simpa using this)
      rw [List.takeWhile_append_dropWhile, f2, g2] at k1
      rw [f2, g2] at k6
      refine ⟨l', hrun _ _ _ k1, by omega, by omega, k5, hmiss _ _ k6, Or.inr ⟨by omega, by rw [k4, f3]; exact htt, ?_⟩⟩
      intro u us hu
      have := List.head?_dropWhile_not (fun u : Int => decide (u ≤ t + I)) ts
      simp only at hu
      rw [hu] at this
      simp at this
      omega

theorem answersFrom_zero (b n : Nat) : answersFrom b 0 n = answers b n := by
  unfold answersFrom answers
  apply List.map_congr_left
  intro i _
  rw [decide_eq_decide]; omega

theorem run_windows (I : Int) (hI : 0 < I) : ∀ (n : Nat) (ts : List Int), ts.length ≤ n → ∀ (l : Limit), l.interval = I → l.burst < 2 ^ 32 →
    (l.begin = 0 ∧ l.passed = 0 ∨ l.begin ≠ 0 ∧ (-(2 ^ 63) ≤ l.begin + I ∧ l.begin + I < 2 ^ 63) ∧ ∀ u us, ts = u :: us → l.begin + I < u) →
    l.missed < 2 ^ 32 → (∀ t ∈ ts, -(2 ^ 63) ≤ t + I ∧ t + I < 2 ^ 63) →
    ∃ l', run l ts = some (l', ((windows I ts).map (fun w => answers l.burst w.length)).flatten) ∧
      l'.missed = (l.missed + ((windows I ts).map (fun w => answers l.burst w.length)).flatten.count false) % 2 ^ 32
  | n, [], _, l, _, _, _, hm, _ => by
    unfold windows
    exact ⟨l, by simp [run], by simp [Nat.mod_eq_of_lt hm]⟩
  | 0, t :: ts, h, _, _, _, _, _, _ => by simp at h
  | n + 1, t :: ts, hlen, l, hi, hb, hs, hm, ht => by
    -- a later call behaves as the first call of a limiter whose window has not opened
    have hfresh : ∃ l0 : Limit, l0.interval = I ∧ l0.burst = l.burst ∧ l0.begin = 0 ∧ l0.passed = 0 ∧ l0.missed = l.missed ∧
        run l (t :: ts) = run l0 (t :: ts) := by
      rcases hs with ⟨h1, h2⟩ | ⟨h1, h2, h3⟩
      · exact ⟨l, hi, rfl, h1, h2, rfl, rfl⟩
      · refine ⟨{ l with begin := 0, passed := 0 }, hi, rfl, rfl, rfl, rfl, ?_⟩
        have htt := ht t List.mem_cons_self
        have e1 := request_new (l := l) (t := t) (by omega) hb h1 (by rw [hi]; exact h2.1) (by rw [hi]; exact h2.2) (by rw [hi]; exact h3 t ts rfl)
        have e2 := request_zero (l := { l with begin := 0, passed := 0 }) (t := t) (by show 0 < l.interval; omega) hb rfl
          (by show _ ≤ t + l.interval; rw [hi]; exact htt.1) (by show t + l.interval < _; rw [hi]; exact htt.2)
        rw [run, run, e1, e2]
    obtain ⟨l0, z1, z2, z3, z4, z5, z6⟩ := hfresh
    obtain ⟨l', k1, k2, k3, k4, k5, k6⟩ := run_window I hI (t :: ts) l0 z1 (by omega) z3 (by omega) ht
    have hsh := window_shorter I (t :: ts) (by simp)
    have hmem : ∀ u ∈ (window I (t :: ts)).2, u ∈ t :: ts := by
      intro u hu
      have := window_append I (t :: ts)
      rw [← this]
      exact List.mem_append_right _ hu
    rw [z2, z4, answersFrom_zero] at k1 k5
    have hwin : windows I (t :: ts) = (window I (t :: ts)).1 :: windows I (window I (t :: ts)).2 := by
      rw [windows, dif_neg (by simp)]
    rw [hwin, List.map_cons, List.flatten_cons, z6, k1]
    rcases k6 with k6 | ⟨k6, k7, k8⟩
    · rw [k6]
      refine ⟨l', by simp [run, windows], ?_⟩
      rw [k5]
      simp [windows, z5]
    · obtain ⟨l2, j1, j2⟩ := run_windows I hI n (window I (t :: ts)).2 (by simp only [List.length_cons] at hlen hsh; omega) l' k2 (by omega)
        (Or.inr ⟨k6, k7, k8⟩) k4 (fun u hu => ht u (hmem u hu))
      rw [k3, z2] at j1 j2
      refine ⟨l2, by rw [j1]; rfl, ?_⟩
      rw [j2, k5, List.count_append, z5]
      omega

/-! ## Theorems -/

/-- The windows are a partition of the history. -/
theorem windows_partition (interval : Int) (ts : List Int) : (windows interval ts).flatten = ts :=
  windows_flatten interval ts.length ts (Nat.le_refl _)

/-- **C36.** Over every history of calls whose times plus the interval are representable, a new limiter answers yes to exactly
the first `burst` calls of every window, no to all others, and `missed` is the number of refused calls modulo 2^32. -/
theorem ratelimit_exact (interval : Int) (burst : Nat) (ts : List Int) (hI : 0 < interval) (hb : burst < 2 ^ 32)
    (hfit : ∀ t ∈ ts, -(2 ^ 63) ≤ t + interval ∧ t + interval < 2 ^ 63) :
    ∃ l', run (init interval burst) ts = some (l', ((windows interval ts).map (fun w => answers burst w.length)).flatten) ∧
      l'.missed = (((windows interval ts).map (fun w => answers burst w.length)).flatten.count false) % 2 ^ 32 := by
  obtain ⟨l', h1, h2⟩ := run_windows interval hI ts.length ts (Nat.le_refl _) (init interval burst) rfl hb (Or.inl ⟨rfl, rfl⟩)
    (by show 0 < 2 ^ 32; decide) hfit
  exact ⟨l', h1, by rw [h2]; simp [init]⟩

/-- At most `burst` calls of a window are admitted, and the count is the smaller of `burst` and the number of calls. -/
theorem answers_count (burst n : Nat) : (answers burst n).count true = min burst n := by
  unfold answers
  induction n with
  | zero => simp
  | succ n ih =>
    rw [List.range_succ, List.map_append, List.count_append, ih]
    by_cases h : n < burst
    · simp [h]; omega
    · simp [h]; omega

example : windows 10 [5, 6, 15, 16, 40, 41] = [[5, 6, 15], [16], [40, 41]] := by decide +kernel

example : (run (init 10 2) [5, 6, 15, 16, 40, 41]).map (·.2) = some [true, true, false, true, true, true] := by
  obtain ⟨l', h, -⟩ := ratelimit_exact 10 2 [5, 6, 15, 16, 40, 41] (by decide) (by decide) (by decide)
  rw [h, Option.map_some]
  refine congrArg some (Eq.trans (b := ((windows 10 [5, 6, 15, 16, 40, 41]).map (fun w => answers 2 w.length)).flatten) rfl ?_)
  decide +kernel

/-- A zero interval turns the limiter off. -/
theorem ratelimit_off (burst : Nat) (ts : List Int) :
    run (init 0 burst) ts = some (init 0 burst, List.replicate ts.length true) := by
  induction ts with
  | nil => rfl
  | cons t ts ih =>
    rw [run]
    have : request (init 0 burst) t = some (init 0 burst, true) := rfl
    rw [this]
    simp only [Option.bind_eq_bind, Option.bind_some, ih]
    rfl

/-- A reset limiter is a new one. -/
theorem ratelimit_reset (interval : Int) (burst : Nat) (ts : List Int) (l : Limit) (out : List Bool)
    (h : run (init interval burst) ts = some (l, out)) : reset l = init interval burst := by
  have key : ∀ (ts : List Int) (l0 l : Limit) (out : List Bool), run l0 ts = some (l, out) → l.interval = l0.interval ∧ l.burst = l0.burst := by
    intro ts
    induction ts with
    | nil => intro l0 l out h; simp only [run, Option.some.injEq, Prod.mk.injEq] at h; rw [← h.1]; exact ⟨rfl, rfl⟩
    | cons t ts ih =>
      intro l0 l out h
      rw [run] at h
      simp only [Option.bind_eq_bind, Option.bind_eq_some_iff] at h
      obtain ⟨r, hr, s, hs, h⟩ := h
      simp only [Option.some.injEq, Prod.mk.injEq] at h
      have h1 := ih r.1 s.1 s.2 hs
      rw [← h.1, h1.1, h1.2]
      have hen : ∀ l : Limit, (enter l t).interval = l.interval ∧ (enter l t).burst = l.burst := by
        intro l; unfold enter; split <;> exact ⟨rfl, rfl⟩
      have htu : ∀ l l2 : Limit, turn l t = some l2 → l2.interval = l.interval ∧ l2.burst = l.burst := by
        intro l l2 h
        unfold turn at h
        simp only at h
        split at h
        · simp only [Option.some.injEq] at h; rw [← h]; split <;> exact ⟨rfl, rfl⟩
        · simp at h
      have had : ∀ l : Limit, (admit l).1.interval = l.interval ∧ (admit l).1.burst = l.burst := by
        intro l; unfold admit; split <;> exact ⟨rfl, rfl⟩
      unfold request at hr
      split at hr
      · simp only [Option.some.injEq] at hr; rw [← hr]; exact ⟨rfl, rfl⟩
      · simp only [Option.map_eq_some_iff] at hr
        obtain ⟨l2, hl2, rfl⟩ := hr
        have := htu _ _ hl2
        rw [(had l2).1, (had l2).2, this.1, this.2, (hen l0).1, (hen l0).2]
        exact ⟨rfl, rfl⟩
  obtain ⟨h1, h2⟩ := key ts _ _ _ h
  unfold reset
  rw [h1, h2]
  rfl

end Bfdev.Ratelimit

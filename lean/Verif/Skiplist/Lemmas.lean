import Verif.Skiplist.Spec
import Verif.Common.Nodup
/-! Searching and changing the levels. -/
namespace Bfdev.Skiplist

theorem dropWhile_mid {x : Nat} {P R : List Nat} (h : x ∉ P) : (P ++ x :: R).dropWhile (· ≠ x) = x :: R := by
  induction P with
  | nil => simp
  | cons y P ih =>
    have hy : y ≠ x := fun e => h (by simp [e])
    rw [List.cons_append, List.dropWhile_cons, if_pos (by simpa using hy)]
    exact ih fun hh => h (by simp [hh])

theorem takeWhile_mid {x : Nat} {P R : List Nat} (h : x ∉ P) : (P ++ x :: R).takeWhile (· ≠ x) = P := by
  induction P with
  | nil => simp
  | cons y P ih =>
    have hy : y ≠ x := fun e => h (by simp [e])
    rw [List.cons_append, List.takeWhile_cons, if_pos (by simpa using hy), ih fun hh => h (by simp [hh])]

theorem after_mid {x : Nat} {P R : List Nat} (h : x ∉ P) : after (P ++ x :: R) (some x) = some R := by
  unfold after
  dsimp only
  rw [if_pos (by simp), dropWhile_mid h]
  rfl

theorem prev_mid {X Y : List Nat} (h : (X ++ Y).Nodup) : prev (X ++ Y) Y.head? = some X.getLast? := by
  cases Y with
  | nil => simp [prev]
  | cons y Y =>
    have hy : y ∉ X := fun hh => (List.nodup_append.1 h).2.2 y hh y (by simp) rfl
    unfold prev
    rw [List.head?_cons]
    dsimp only
    rw [if_pos (by simp), takeWhile_mid hy]

theorem add_mid {X Y : List Nat} (h : (X ++ Y).Nodup) (n : Nat) : add (X ++ Y) n X.getLast? = some (X ++ n :: Y) := by
  rcases List.eq_nil_or_concat X with rfl | ⟨Z, x, rfl⟩
  · rfl
  · rw [List.concat_eq_append] at *
    have hx : x ∉ Z := by
      have := (List.nodup_append.1 h).1
      exact fun hh => (List.nodup_append.1 this).2.2 x hh x (by simp) rfl
    rw [List.getLast?_concat]
    unfold add
    dsimp only
    rw [if_pos (by simp), List.append_assoc, List.singleton_append, takeWhile_mid hx, dropWhile_mid hx]
    simp

theorem scan_skip (c : Nat → Int) (stop : Option Nat) (R : List Nat) : ∀ (Q : List Nat) (ret : Option (Nat × Int)), (∀ x ∈ Q, c x < 0) → (∀ x ∈ Q, stop ≠ some x) →
    ∃ ret', scan c stop (Q ++ R) ret = scan c stop R ret' ∧ ((Q = [] ∧ ret' = ret) ∨ ∃ w, ret' = some (w, c w) ∧ c w < 0) := by
  intro Q
  induction Q with
  | nil => intro ret _ _; exact ⟨ret, rfl, Or.inl ⟨rfl, rfl⟩⟩
  | cons x Q ih =>
    intro ret h1 h2
    have hx := h1 x (by simp)
    obtain ⟨ret', e, h⟩ := ih (some (x, c x)) (fun y hy => h1 y (by simp [hy])) (fun y hy => h2 y (by simp [hy]))
    refine ⟨ret', ?_, Or.inr ?_⟩
    · rw [← e, List.cons_append]
      show (if stop = some x then _ else if c x ≥ 0 then _ else _) = _
      rw [if_neg (h2 x (by simp)), if_neg (by omega)]
    · rcases h with ⟨-, h⟩ | h
      · exact ⟨x, h, hx⟩
      · exact h

/-- The nodes linked on level `k`. -/
def F (ht : Nat → Nat) (k : Nat) (L : List Nat) : List Nat := L.filter fun x => k < ht x

theorem F_append (ht : Nat → Nat) (k : Nat) (A B : List Nat) : F ht k (A ++ B) = F ht k A ++ F ht k B := List.filter_append ..

theorem F_mem {ht : Nat → Nat} {k x : Nat} {A : List Nat} : x ∈ F ht k A ↔ x ∈ A ∧ k < ht x := by
  unfold F; rw [List.mem_filter]; simp

theorem F_F (ht : Nat → Nat) (k : Nat) (A : List Nat) : F ht (k + 1) A = F ht (k + 1) (F ht k A) := by
  unfold F
  rw [List.filter_filter]
  congr 1
  funext x
  by_cases h : k + 1 < ht x
  · have h2 : k < ht x := by omega
    rw [decide_eq_true h, decide_eq_true h2]; rfl
  · rw [decide_eq_false h]; rfl

theorem F_nodup {ht : Nat → Nat} {k : Nat} {A : List Nat} (h : A.Nodup) : (F ht k A).Nodup := List.Pairwise.filter _ h

theorem head_mem {L : List Nat} {x : Nat} (h : L.head? = some x) : x ∈ L := by
  cases L with
  | nil => cases h
  | cons y L => cases h; simp

/-- One level of the search. -/
theorem level_scan {c : Nat → Int} {ht : Nat → Nat} {A B : List Nat} (hnd : (A ++ B).Nodup) (hA : ∀ x ∈ A, c x < 0) (hB : ∀ x ∈ B, 0 ≤ c x) (k : Nat)
    (ret : Option (Nat × Int)) :
    ∃ l ret', after (F ht k (A ++ B)) (F ht (k + 1) A).getLast? = some l ∧ scan c (F ht (k + 1) B).head? l ret = some ((F ht k B).head?, ret') ∧
      prev (F ht k (A ++ B)) (F ht k B).head? = some (F ht k A).getLast? ∧
      ((∃ b, (F ht k B).head? = some b ∧ ht b = k + 1 ∧ ret' = some (b, c b)) ∨
        ((F ht k B).head? = (F ht (k + 1) B).head? ∧ ((ret' = ret ∧ ((F ht (k + 1) A).getLast? = none → F ht k A = [])) ∨ ∃ w, ret' = some (w, c w) ∧ c w < 0))) := by
  obtain ⟨nA, nB, nAB⟩ := List.nodup_append.1 hnd
  have hdis : (F ht k A ++ F ht k B).Nodup := by rw [← F_append]; exact F_nodup hnd
  have haft : ∃ Q, after (F ht k (A ++ B)) (F ht (k + 1) A).getLast? = some (Q ++ F ht k B) ∧ (∀ x ∈ Q, x ∈ A) ∧ ((F ht (k + 1) A).getLast? = none → Q = F ht k A) := by
    cases hl : (F ht (k + 1) A).getLast? with
    | none =>
      refine ⟨F ht k A, by rw [F_append]; rfl, fun x hx => (F_mem.1 hx).1, fun _ => rfl⟩
    | some a =>
      have ha := F_mem.1 (List.mem_of_getLast? hl)
      have ha' : a ∈ F ht k A := F_mem.2 ⟨ha.1, by omega⟩
      obtain ⟨P, Q, e⟩ := List.append_of_mem ha'
      have hnd2 : (F ht k A).Nodup := F_nodup nA
      rw [e] at hnd2
      have haP : a ∉ P := fun hh => (List.nodup_append.1 hnd2).2.2 a hh a (by simp) rfl
      refine ⟨Q, ?_, ?_, fun h => by cases h⟩
      · rw [F_append, e, List.append_assoc, List.cons_append]
        exact after_mid haP
      · intro x hx
        exact (F_mem.1 (show x ∈ F ht k A by rw [e]; simp [hx])).1
  obtain ⟨Q, e1, hQ, hQ2⟩ := haft
  have hstop : ∀ x ∈ Q, (F ht (k + 1) B).head? ≠ some x := by
    intro x hx e
    exact nAB x (hQ x hx) x (F_mem.1 (head_mem e)).1 rfl
  obtain ⟨r1, e2, hr1⟩ := scan_skip c (F ht (k + 1) B).head? (F ht k B) Q ret (fun x hx => hA x (hQ x hx)) hstop
  have hlast : ((r1 = ret ∧ ((F ht (k + 1) A).getLast? = none → F ht k A = [])) ∨ ∃ w, r1 = some (w, c w) ∧ c w < 0) := by
    rcases hr1 with ⟨h1, h2⟩ | h
    · exact Or.inl ⟨h2, fun h => by rw [← hQ2 h, h1]⟩
    · exact Or.inr h
  have hprev := prev_mid hdis
  rw [← F_append] at hprev
  cases hb : F ht k B with
  | nil =>
    have hn : F ht (k + 1) B = [] := by rw [F_F, hb]; rfl
    refine ⟨Q ++ F ht k B, r1, e1, ?_, ?_, Or.inr ⟨by rw [hn], hlast⟩⟩
    · rw [e2, hb, hn]
      rfl
    · rw [hb] at hprev; exact hprev
  | cons b B' =>
    have hbB : b ∈ F ht k B := by rw [hb]; simp
    by_cases hs : (F ht (k + 1) B).head? = some b
    · refine ⟨Q ++ F ht k B, r1, e1, ?_, ?_, Or.inr ⟨by rw [hs]; rfl, hlast⟩⟩
      · rw [e2, hb]
        unfold scan
        rw [if_pos hs, hs]
        rfl
      · rw [hb] at hprev; exact hprev
    · refine ⟨Q ++ F ht k B, some (b, c b), e1, ?_, ?_, Or.inl ⟨b, rfl, ?_, rfl⟩⟩
      · rw [e2, hb]
        unfold scan
        rw [if_neg hs, if_pos (hB b (F_mem.1 hbB).1)]
        rfl
      · rw [hb] at hprev; exact hprev
      · have h1 := (F_mem.1 hbB).2
        rcases Nat.lt_or_ge (k + 1) (ht b) with h | h
        · exfalso
          apply hs
          rw [F_F, hb]
          unfold F
          rw [List.filter_cons, if_pos (by simpa using h)]
          rfl
        · omega

theorem findLoop_ok {c : Nat → Int} {ht : Nat → Nat} {A B : List Nat} {lv : Nat → List Nat} (hnd : (A ++ B).Nodup) (hA : ∀ x ∈ A, c x < 0)
    (hB : ∀ x ∈ B, 0 ≤ c x) (hmon : B.Pairwise fun x y => c y ≤ 0 → c x ≤ 0) (hlv : ∀ k, lv k = F ht k (A ++ B)) (hpos : ∀ x ∈ A ++ B, 0 < ht x) :
    ∀ (k : Nat) (ret : Option (Nat × Int)), (ret = none → 0 < k → F ht k (A ++ B) = [] ∧ F ht (k - 1) (A ++ B) ≠ []) →
      (ret = none → k = 0 → A ++ B = []) →
      (∀ w v, ret = some (w, v) → v ≠ 0) → (∀ b, (F ht k B).head? = some b → 0 < c b) →
      ∃ r, findLoop lv c k (F ht k A).getLast? (F ht k B).head? ret = some r ∧
        (r = none → ∀ x ∈ A ++ B, c x ≠ 0) ∧ ∀ w l, r = some (w, l) → w ∈ A ++ B ∧ c w = 0 ∧ l = ht w := by
  intro k
  induction k with
  | zero =>
    intro ret _ _ _ hs
    refine ⟨none, rfl, fun _ x hx => ?_, by simp⟩
    rcases List.mem_append.1 hx with h | h
    · have := hA x h; omega
    · have h0 : F ht 0 B = B := List.filter_eq_self.2 fun y hy => by simpa using hpos y (by simp [hy])
      rw [h0] at hs
      cases B with
      | nil => cases h
      | cons b B =>
        have h1 := hs b rfl
        rcases List.mem_cons.1 h with rfl | h
        · omega
        · intro e
          have := (List.pairwise_cons.1 hmon).1 x h (by omega)
          omega
  | succ k ih =>
    intro ret hn _ hv hs
    obtain ⟨l, ret', e1, e2, e3, h⟩ := level_scan (ht := ht) hnd hA hB k ret
    unfold findLoop
    rw [hlv k, e1, Option.bind_some, e2, Option.bind_some]
    dsimp only
    rcases h with ⟨b, b1, b2, b3⟩ | ⟨h1, h2⟩
    · have hbB : b ∈ B := (F_mem.1 (head_mem b1)).1
      subst b3
      dsimp only
      by_cases h0 : c b = 0
      · rw [if_pos h0]
        refine ⟨_, rfl, fun h => (by cases h), fun w l h => ?_⟩
        cases h
        exact ⟨by simp [hbB], h0, b2.symm⟩
      · rw [if_neg h0, e3, Option.bind_some]
        refine ih _ (fun h => (by cases h)) (fun h => (by cases h)) (fun w v h => by cases h; exact h0) ?_
        intro b' hb'
        rw [b1] at hb'
        cases hb'
        have := hB b hbB
        omega
    · cases hr : ret' with
      | none =>
        exfalso
        rcases h2 with ⟨h2, h3⟩ | ⟨w, h2, -⟩
        · subst h2
          obtain ⟨q1, q2⟩ := hn hr (by omega)
          rw [F_append] at q1
          obtain ⟨q3, q4⟩ := List.append_eq_nil_iff.1 q1
          rw [q3] at h3
          have h4 := h3 rfl
          rw [q4] at h1
          apply q2
          rw [Nat.add_sub_cancel, F_append, h4]
          cases hF : F ht k B with
          | nil => rfl
          | cons b B' => rw [hF] at h1; cases h1
        · rw [hr] at h2; cases h2
      | some wv =>
        obtain ⟨w, v⟩ := wv
        have hv0 : v ≠ 0 := by
          rcases h2 with ⟨h2, -⟩ | ⟨w', h2, h3⟩
          · exact hv w v (by rw [← h2, hr])
          · rw [hr] at h2
            cases h2
            omega
        dsimp only
        rw [if_neg hv0, e3, Option.bind_some]
        refine ih _ (fun h => (by cases h)) (fun h => (by cases h)) (fun w' v' h => by cases h; exact hv0) ?_
        rw [h1]
        exact hs

theorem insertLoop_ok {c : Nat → Int} {ht : Nat → Nat} {A B : List Nat} (hnd : (A ++ B).Nodup) (hA : ∀ x ∈ A, c x < 0)
    (hB : ∀ x ∈ B, 0 ≤ c x) (n level : Nat) :
    ∀ (k : Nat) (lv : Nat → List Nat) (ret : Option (Nat × Int)), (∀ j, j < k → lv j = F ht j (A ++ B)) →
      insertLoop c n level k lv (F ht k A).getLast? (F ht k B).head? ret =
        some fun j => if j < k ∧ j < level then F ht j A ++ n :: F ht j B else lv j := by
  intro k
  induction k with
  | zero =>
    intro lv ret _
    unfold insertLoop
    congr 1
  | succ k ih =>
    intro lv ret hlv
    obtain ⟨l, ret', e1, e2, e3, -⟩ := level_scan (ht := ht) hnd hA hB k ret
    unfold insertLoop
    rw [hlv k (by omega), e1, Option.bind_some, e2, Option.bind_some]
    dsimp only
    rw [e3, Option.bind_some]
    by_cases hk : k < level
    · rw [if_pos hk, F_append, add_mid (by rw [← F_append]; exact F_nodup hnd), Option.bind_some]
      rw [ih _ _ (fun j hj => by unfold upd; rw [if_neg (by omega)]; exact hlv j (by omega))]
      congr 1
      funext j
      unfold upd
      by_cases hj : j = k
      · subst hj
        rw [if_neg (by omega), if_pos rfl, if_pos (by omega)]
      · by_cases hj2 : j < k ∧ j < level
        · rw [if_pos hj2, if_pos (by omega)]
        · rw [if_neg hj2, if_neg hj, if_neg (by omega)]
    · rw [if_neg hk, ih _ _ (fun j hj => hlv j (by omega))]
      congr 1
      funext j
      by_cases hj2 : j < k ∧ j < level
      · rw [if_pos hj2, if_pos (by omega)]
      · rw [if_neg hj2, if_neg (by omega)]

theorem deleteLoop_ok {κ : Type} (n : Nat) : ∀ (k : Nat) (s : Skip κ), (∀ j, j < k → n ∈ s.lv j) →
    ∃ cur, deleteLoop n k s = some { s with lv := fun j => if j < k then (s.lv j).erase n else s.lv j, curr := cur } ∧
      ((cur = s.curr ∧ ∀ j, j < k → (s.lv j).erase n ≠ []) ∨ (cur < k ∧ (s.lv cur).erase n = [] ∧ ∀ j, j < cur → (s.lv j).erase n ≠ [])) := by
  intro k
  induction k with
  | zero =>
    intro s _
    refine ⟨s.curr, ?_, Or.inl ⟨rfl, by omega⟩⟩
    unfold deleteLoop
    congr 1
  | succ k ih =>
    intro s h
    obtain ⟨cur, e, h2⟩ := ih { s with lv := upd s.lv k ((s.lv k).erase n), curr := if (s.lv k).erase n = [] then k else s.curr }
      (fun j hj => by show n ∈ upd _ _ _ j; unfold upd; rw [if_neg (by omega)]; exact h j (by omega))
    have hlow : ∀ j, j < k → upd s.lv k ((s.lv k).erase n) j = s.lv j := by
      intro j hj
      unfold upd
      rw [if_neg (by omega)]
    refine ⟨cur, ?_, ?_⟩
    · unfold deleteLoop
      rw [if_pos (h k (by omega))]
      dsimp only
      rw [e]
      congr 2
      funext j
      dsimp only
      unfold upd
      by_cases hj : j = k
      · subst hj
        rw [if_neg (by omega), if_pos rfl, if_pos (by omega)]
      · by_cases hj2 : j < k
        · rw [if_pos hj2, if_neg hj, if_pos (by omega)]
        · rw [if_neg hj2, if_neg hj, if_neg (by omega)]
    · dsimp only at h2
      rcases h2 with ⟨h3, h4⟩ | ⟨h3, h4, h5⟩
      · by_cases hk : (s.lv k).erase n = []
        · rw [if_pos hk] at h3
          refine Or.inr ⟨by omega, by rw [h3]; exact hk, fun j hj => ?_⟩
          have := h4 j (by omega)
          rwa [hlow j (by omega)] at this
        · rw [if_neg hk] at h3
          refine Or.inl ⟨h3, fun j hj => ?_⟩
          by_cases hj2 : j = k
          · subst hj2; exact hk
          · have := h4 j (by omega)
            rwa [hlow j (by omega)] at this
      · rw [hlow cur h3] at h4
        refine Or.inr ⟨by omega, h4, fun j hj => ?_⟩
        have := h5 j hj
        rwa [hlow j (by omega)] at this

theorem partition {c : Nat → Int} : ∀ {L : List Nat}, L.Pairwise (fun x y => c y < 0 → c x < 0) →
    ∃ A B, L = A ++ B ∧ (∀ x ∈ A, c x < 0) ∧ (∀ x ∈ B, 0 ≤ c x) := by
  intro L
  induction L with
  | nil => intro _; exact ⟨[], [], rfl, by simp, by simp⟩
  | cons y L ih =>
    intro h
    obtain ⟨h1, h2⟩ := List.pairwise_cons.1 h
    by_cases hy : c y < 0
    · obtain ⟨A, B, e, hA, hB⟩ := ih h2
      refine ⟨y :: A, B, by rw [e]; rfl, ?_, hB⟩
      intro x hx
      rcases List.mem_cons.1 hx with rfl | hx
      · exact hy
      · exact hA x hx
    · refine ⟨[], y :: L, rfl, by simp, ?_⟩
      intro x hx
      rcases List.mem_cons.1 hx with rfl | hx
      · omega
      · rcases (by omega : c x < 0 ∨ 0 ≤ c x) with h | h
        · exact absurd (h1 x hx h) hy
        · exact h

theorem levelLoop_ok {levels : Nat} {rand : Nat → Nat} : ∀ {fuel i level : Nat}, 1 ≤ level → level ≤ levels → levels < fuel + level →
    ∃ r, levelLoop levels rand fuel i level = some r ∧ 1 ≤ r ∧ r ≤ levels := by
  intro fuel
  induction fuel with
  | zero => intro i level h1 h2 h3; omega
  | succ fuel ih =>
    intro i level h1 h2 h3
    unfold levelLoop
    split
    · split
      · exact ⟨_, rfl, h1, h2⟩
      · exact ih (by omega) (by omega) (by omega)
    · exact ⟨_, rfl, h1, h2⟩

/-- The level drawn is one of the levels of the list. -/
theorem random_level {levels : Nat} (h : 0 < levels) (rand : Nat → Nat) : ∃ r, randomLevel levels rand = some r ∧ 1 ≤ r ∧ r ≤ levels :=
  levelLoop_ok (by omega) (by omega) (by omega)

variable {κ : Type}

structure Inv (cmp : κ → κ → Int) (s : Skip κ) (ht : Nat → Nat) : Prop where
  lv : ∀ k, s.lv k = F ht k (s.lv 0)
  pos : ∀ x ∈ s.lv 0, 0 < ht x ∧ ht x ≤ s.curr
  cur : s.curr ≤ s.levels
  top : 0 < s.curr → s.lv (s.curr - 1) ≠ []
  nd : (s.lv 0).Nodup
  lnd : s.live.Nodup
  live : ∀ n, n ∈ s.lv 0 ↔ n ∈ s.live
  sorted : s.items.Pairwise fun a b => cmp a b ≤ 0
  lpos : 0 < s.levels

theorem F_zero {ht : Nat → Nat} {A : List Nat} (h : ∀ x ∈ A, 0 < ht x) : F ht 0 A = A :=
  List.filter_eq_self.2 fun x hx => by simpa using h x hx

theorem F_top {ht : Nat → Nat} {k : Nat} {A : List Nat} (h : ∀ x ∈ A, ht x ≤ k) : F ht k A = [] :=
  List.filter_eq_nil_iff.2 fun x hx => by have := h x hx; simp; omega

theorem F_upd {ht : Nat → Nat} {k n l : Nat} {A : List Nat} (h : n ∉ A) : F (upd ht n l) k A = F ht k A := by
  unfold F
  refine List.filter_congr fun x hx => ?_
  unfold upd
  rw [if_neg (show ¬ x = n from fun e => h (e ▸ hx))]

/-- Searching with a function that agrees with the order. -/
theorem nodeFind_ok {cmp : κ → κ → Int} {s : Skip κ} {ht : Nat → Nat} (h : Inv cmp s ht) {c : κ → Int} (hc : Agrees cmp c) :
    ∃ r, nodeFind s c = some r ∧ (r = none → ∀ x ∈ s.lv 0, c (s.key x) ≠ 0) ∧
      ∀ w l, r = some (w, l) → w ∈ s.lv 0 ∧ c (s.key w) = 0 ∧ l = ht w := by
  have hs := h.sorted
  unfold Skip.items at hs
  rw [List.pairwise_map] at hs
  obtain ⟨A, B, e, hA, hB⟩ := partition (c := fun x => c (s.key x)) (L := s.lv 0) (hs.imp fun {x y} hxy => (hc _ _ hxy).1)
  rcases Nat.eq_zero_or_pos s.curr with h0 | h0
  · have hnil : s.lv 0 = [] := by
      cases hl : s.lv 0 with
      | nil => rfl
      | cons x L => have := h.pos x (by rw [hl]; simp); omega
    refine ⟨none, ?_, fun _ x hx => ?_, by simp⟩
    · unfold nodeFind
      rw [h0]
      rfl
    · rw [hnil] at hx; cases hx
  · have hF : F ht s.curr (A ++ B) = [] := by
      rw [← e]
      exact F_top fun x hx => (h.pos x hx).2
    have hF' := hF
    rw [F_append] at hF'
    obtain ⟨fA, fB⟩ := List.append_eq_nil_iff.1 hF'
    have hmon : B.Pairwise fun x y => c (s.key y) ≤ 0 → c (s.key x) ≤ 0 := by
      rw [e] at hs
      exact (List.pairwise_append.1 hs).2.1.imp fun {x y} hxy => (hc _ _ hxy).2
    have := findLoop_ok (c := fun x => c (s.key x)) (ht := ht) (A := A) (B := B) (lv := s.lv) (by rw [← e]; exact h.nd) hA hB hmon
      (by rw [← e]; exact h.lv) (by rw [← e]; exact fun x hx => (h.pos x hx).1) s.curr none
      (fun _ _ => ⟨hF, by rw [← e, ← h.lv]; exact h.top h0⟩) (fun _ h1 => by omega) (by simp) (by rw [fB]; simp)
    rw [fA, fB, ← e] at this
    exact this

theorem perm_erase_live {s : Skip κ} {n : Nat} (hn : (s.lv 0).Nodup) (hl : s.live.Nodup) (h : ∀ m, m ∈ s.lv 0 ↔ m ∈ s.live) :
    ∀ m, m ∈ (s.lv 0).erase n ↔ m ∈ s.live.erase n := by
  intro m
  rw [hn.mem_erase_iff, hl.mem_erase_iff, h m]

theorem F_erase {ht : Nat → Nat} {k n : Nat} {A : List Nat} (hn : A.Nodup) : F ht k (A.erase n) = (F ht k A).erase n := by
  rw [hn.erase_eq_filter, (F_nodup hn).erase_eq_filter]
  unfold F
  rw [List.filter_filter, List.filter_filter]
  refine List.filter_congr fun x _ => Bool.and_comm _ _

/-- Deleting. -/
theorem delete_ok {cmp : κ → κ → Int} {s : Skip κ} {ht : Nat → Nat} (h : Inv cmp s ht) {c : κ → Int} (hc : Agrees cmp c) :
    ∃ s', delete s c = some s' ∧ Inv cmp s' ht ∧ s'.key = s.key ∧ s'.levels = s.levels ∧
      ((s' = s ∧ ∀ x ∈ s.lv 0, c (s.key x) ≠ 0) ∨ ∃ n ∈ s.lv 0, c (s.key n) = 0 ∧ s'.lv 0 = (s.lv 0).erase n ∧ s'.live = s.live.erase n) := by
  obtain ⟨r, e, h1, h2⟩ := nodeFind_ok h hc
  cases r with
  | none =>
    refine ⟨s, ?_, h, rfl, rfl, Or.inl ⟨rfl, h1 rfl⟩⟩
    unfold delete
    rw [e]
    rfl
  | some wl =>
    obtain ⟨n, l⟩ := wl
    obtain ⟨hn, hcn, hl⟩ := h2 n l rfl
    have hpos := h.pos n hn
    have hin : ∀ j, j < l → n ∈ s.lv j := by
      intro j hj
      rw [h.lv]
      exact F_mem.2 ⟨hn, by omega⟩
    obtain ⟨cur, e2, hcur⟩ := deleteLoop_ok n l s hin
    have hlive := (h.live n).1 hn
    have herase : ∀ j, (if j < l then (s.lv j).erase n else s.lv j) = (s.lv j).erase n := by
      intro j
      split
      · rfl
      · rw [List.erase_of_not_mem]
        rw [h.lv]
        exact fun hh => by have := (F_mem.1 hh).2; omega
    have hlv : (fun j => if j < l then (s.lv j).erase n else s.lv j) = fun j => (s.lv j).erase n := funext herase
    rw [hlv] at e2
    refine ⟨{ s with lv := fun j => (s.lv j).erase n, curr := cur, live := s.live.erase n }, ?_, ?_, rfl, rfl, Or.inr ⟨n, hn, hcn, rfl, rfl⟩⟩
    · unfold delete
      rw [e, Option.bind_some]
      dsimp only
      rw [e2, Option.bind_some]
      exact if_pos hlive
    · refine ⟨?_, ?_, ?_, ?_, h.nd.erase _, h.lnd.erase _, perm_erase_live h.nd h.lnd h.live, ?_, h.lpos⟩
      · intro k
        show (s.lv k).erase n = F ht k ((s.lv 0).erase n)
        rw [F_erase h.nd, ← h.lv]
      · intro x hx
        have hx : x ∈ (s.lv 0).erase n := hx
        rw [h.nd.mem_erase_iff] at hx
        have hp := h.pos x hx.2
        refine ⟨hp.1, ?_⟩
        show ht x ≤ cur
        rcases hcur with ⟨h3, -⟩ | ⟨h3, h4, -⟩
        · omega
        · rcases Nat.lt_or_ge cur (ht x) with h5 | h5
          · have : x ∈ (s.lv cur).erase n := by
              rw [h.lv, (F_nodup h.nd).mem_erase_iff]
              exact ⟨hx.1, F_mem.2 ⟨hx.2, h5⟩⟩
            rw [h4] at this
            cases this
          · exact h5
      · show cur ≤ s.levels
        have := h.cur
        omega
      · intro h0
        have h0 : 0 < cur := h0
        show (s.lv (cur - 1)).erase n ≠ []
        rcases hcur with ⟨h3, h4⟩ | ⟨h3, -, h4⟩
        · rcases Nat.lt_or_ge (cur - 1) l with h5 | h5
          · exact h4 _ h5
          · rw [← herase, if_neg (by omega), h3]
            exact h.top (by omega)
        · exact h4 _ (by omega)
      · have := h.sorted
        unfold Skip.items at this ⊢
        rw [List.pairwise_map] at this ⊢
        exact this.sublist List.erase_sublist

/-- Inserting. -/
theorem insert_ok {cmp : κ → κ → Int} (ho : Order cmp) {s : Skip κ} {ht : Nat → Nat} (h : Inv cmp s ht) (key : κ) (rand : Nat → Nat) {n : Nat} (hn : n ∉ s.live) :
    ∃ s' ht' A B, insert s key cmp rand (some n) = some (s', 0) ∧ Inv cmp s' ht' ∧ s.lv 0 = A ++ B ∧ s'.lv 0 = A ++ n :: B ∧ (∀ x ∈ A, cmp (s.key x) key < 0) ∧
      (∀ x ∈ B, 0 ≤ cmp (s.key x) key) ∧ s'.key = upd s.key n key ∧ s'.live = n :: s.live ∧ s'.levels = s.levels := by
  obtain ⟨level, e1, hl1, hl2⟩ := random_level h.lpos rand
  have hs := h.sorted
  unfold Skip.items at hs
  rw [List.pairwise_map] at hs
  have hn0 : n ∉ s.lv 0 := fun hh => hn ((h.live n).1 hh)
  have hkey : ∀ x ∈ s.lv 0, upd s.key n key x = s.key x := fun x hx => if_neg (show ¬ x = n from fun e => hn0 (e ▸ hx))
  have hagr : ∀ a b, cmp a b ≤ 0 → cmp b key < 0 → cmp a key < 0 := by
    intro a b h1 h2
    have h3 := ho.trans a b key h1 (by omega)
    rcases (by omega : cmp a key < 0 ∨ 0 ≤ cmp a key) with h4 | h4
    · exact h4
    · have h5 := (ho.total a key).1 h4
      have h6 := ho.trans key a b h5 h1
      have h7 := (ho.total b key).2 h6
      omega
  obtain ⟨A, B, e, hA, hB⟩ := partition (c := fun x => cmp (s.key x) key) (L := s.lv 0) (hs.imp fun {x y} hxy => hagr _ _ hxy)
  have hnA : n ∉ A := fun hh => hn0 (by rw [e]; simp [hh])
  have hnB : n ∉ B := fun hh => hn0 (by rw [e]; simp [hh])
  have hkA : ∀ x ∈ A, upd s.key n key x = s.key x := fun x hx => hkey x (by rw [e]; simp [hx])
  have hkB : ∀ x ∈ B, upd s.key n key x = s.key x := fun x hx => hkey x (by rw [e]; simp [hx])
  have hF : F ht (max s.curr level) (A ++ B) = [] := by
    rw [← e]
    exact F_top fun x hx => by have := (h.pos x hx).2; omega
  rw [F_append] at hF
  obtain ⟨fA, fB⟩ := List.append_eq_nil_iff.1 hF
  have hloop := insertLoop_ok (c := fun x => cmp (upd s.key n key x) key) (ht := ht) (A := A) (B := B) (by rw [← e]; exact h.nd)
    (fun x hx => by rw [hkA x hx]; exact hA x hx) (fun x hx => by rw [hkB x hx]; exact hB x hx) n level
    (max s.curr level) s.lv none (fun j _ => by rw [← e]; exact h.lv j)
  rw [fA, fB] at hloop
  have hj : ∀ j, (if j < max s.curr level ∧ j < level then F ht j A ++ n :: F ht j B else s.lv j) = F (upd ht n level) j (A ++ n :: B) := by
    intro j
    have hun : upd ht n level n = level := if_pos rfl
    rw [F_append, F_upd hnA]
    split
    · rename_i hlt
      have : F (upd ht n level) j (n :: B) = n :: F (upd ht n level) j B := by
        unfold F
        rw [List.filter_cons, if_pos (by rw [hun]; simpa using hlt.2)]
      rw [this, F_upd hnB]
    · rename_i hlt
      have : F (upd ht n level) j (n :: B) = F (upd ht n level) j B := by
        unfold F
        rw [List.filter_cons, if_neg (by rw [hun]; simp; omega)]
      rw [this, F_upd hnB, ← F_append, ← e]
      exact h.lv j
  have hlv : (fun j => if j < max s.curr level ∧ j < level then F ht j A ++ n :: F ht j B else s.lv j) = fun j => F (upd ht n level) j (A ++ n :: B) := funext hj
  rw [hlv, List.getLast?_nil, List.head?_nil] at hloop
  have hz : F (upd ht n level) 0 (A ++ n :: B) = A ++ n :: B := by
    refine F_zero fun x hx => ?_
    unfold upd
    split
    · omega
    · rename_i hne
      refine (h.pos x ?_).1
      rw [e]
      rcases List.mem_append.1 hx with hx | hx
      · simp [hx]
      · rcases List.mem_cons.1 hx with hx | hx
        · exact absurd hx hne
        · simp [hx]
  have hnd : (A ++ n :: B).Nodup := by
    have := h.nd
    rw [e] at this
    refine (List.perm_middle.nodup_iff).2 (List.nodup_cons.2 ⟨?_, this⟩)
    simp [hnA, hnB]
  refine ⟨⟨s.levels, max s.curr level, fun j => F (upd ht n level) j (A ++ n :: B), upd s.key n key, n :: s.live⟩, upd ht n level, A, B, ?_, ?_, e, hz, hA, hB, rfl, rfl, rfl⟩
  · unfold insert
    rw [e1, Option.bind_some]
    dsimp only
    rw [hloop]
    rfl
  · refine ⟨?_, ?_, ?_, ?_, ?_, List.nodup_cons.2 ⟨hn, h.lnd⟩, ?_, ?_, h.lpos⟩
    · intro k
      show F (upd ht n level) k (A ++ n :: B) = F (upd ht n level) k (F (upd ht n level) 0 (A ++ n :: B))
      rw [hz]
    · intro x hx
      have hx : x ∈ F (upd ht n level) 0 (A ++ n :: B) := hx
      refine ⟨(F_mem.1 hx).2, ?_⟩
      show upd ht n level x ≤ max s.curr level
      rw [hz] at hx
      unfold upd
      split
      · omega
      · rename_i hne
        have : x ∈ s.lv 0 := by
          rw [e]
          rcases List.mem_append.1 hx with hx | hx
          · simp [hx]
          · rcases List.mem_cons.1 hx with hx | hx
            · exact absurd hx hne
            · simp [hx]
        have := (h.pos x this).2
        omega
    · show max s.curr level ≤ s.levels
      have := h.cur
      omega
    · intro _
      show F (upd ht n level) (max s.curr level - 1) (A ++ n :: B) ≠ []
      rcases Nat.lt_or_ge s.curr level with h1 | h1
      · refine List.ne_nil_of_mem (a := n) (F_mem.2 ⟨by simp, ?_⟩)
        unfold upd
        rw [if_pos rfl]
        omega
      · have ht := h.top (by omega)
        obtain ⟨x, hx⟩ := List.exists_mem_of_ne_nil _ ht
        rw [h.lv, e] at hx
        obtain ⟨hx1, hx2⟩ := F_mem.1 hx
        refine List.ne_nil_of_mem (a := x) (F_mem.2 ⟨?_, ?_⟩)
        · rcases List.mem_append.1 hx1 with hx | hx <;> simp [hx]
        · unfold upd
          rw [if_neg]
          · rw [show max s.curr level - 1 = s.curr - 1 by omega]; exact hx2
          · intro e2
            rw [← e] at hx1
            exact hn0 (e2 ▸ hx1)
    · show (F (upd ht n level) 0 (A ++ n :: B)).Nodup
      rw [hz]; exact hnd
    · intro m
      show m ∈ F (upd ht n level) 0 (A ++ n :: B) ↔ m ∈ n :: s.live
      rw [hz, List.mem_cons, ← h.live m, e]
      simp only [List.mem_append, List.mem_cons]
      constructor
      · rintro (h | h | h)
        · exact Or.inr (Or.inl h)
        · exact Or.inl h
        · exact Or.inr (Or.inr h)
      · rintro (h | h | h)
        · exact Or.inr (Or.inl h)
        · exact Or.inl h
        · exact Or.inr (Or.inr h)
    · show ((F (upd ht n level) 0 (A ++ n :: B)).map (upd s.key n key)).Pairwise _
      rw [hz]
      rw [e] at hs
      obtain ⟨p1, p2, p3⟩ := List.pairwise_append.1 hs
      have hun : upd s.key n key n = key := if_pos rfl
      rw [List.pairwise_map, List.pairwise_append]
      refine ⟨p1.imp_of_mem fun {x y} hx hy hxy => by rw [hkA x hx, hkA y hy]; exact hxy, ?_, ?_⟩
      · refine List.pairwise_cons.2 ⟨fun y hy => ?_, p2.imp_of_mem fun {x y} hx hy hxy => by rw [hkB x hx, hkB y hy]; exact hxy⟩
        rw [hun, hkB y hy]
        exact (ho.total _ _).1 (hB y hy)
      · intro x hx y hy
        rw [hkA x hx]
        rcases List.mem_cons.1 hy with rfl | hy
        · rw [hun]; have := hA x hx; omega
        · rw [hkB y hy]; exact p3 x hx y hy

end Bfdev.Skiplist

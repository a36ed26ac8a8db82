import Verif.Skiplist.Props
/-!
Property C111: a skip list whose comparison callbacks answer anything at all, differently each time they are asked. The functions of
`Verif/Skiplist/Model.lean` once more, with the callback replaced by an oracle that is told the number of the call, and with a log of the questions and answers.
-/
namespace Bfdev.Skiplist

/-- The nodes asked about so far, with the answers. -/
abbrev Asked := List (Nat × Int)

/-- The inner loop, skiplist.c:43-50 and 84-91: the new value of `end`, and the node and result of the last comparison. -/
def askScan (f : Nat → Nat → Int) (stop : Option Nat) : List Nat → Asked → Option (Nat × Int) → Option (Option Nat × Option (Nat × Int) × Asked)
  | [], q, ret => if stop = none then some (none, ret, q) else none
  | x :: l, q, ret =>
    if stop = some x then some (stop, ret, q)
    else if f q.length x ≥ 0 then some (some x, some (x, f q.length x), q ++ [(x, f q.length x)])
    else askScan f stop l (q ++ [(x, f q.length x)]) (some (x, f q.length x))

/-- The outer loop of `skipnode_find`, skiplist.c:42-58. -/
def askFindLoop (lv : Nat → List Nat) (f : Nat → Nat → Int) : Nat → Option Nat → Option Nat → Option (Nat × Int) → Asked → Option (Option (Nat × Nat) × Asked)
  | 0, _, _, _, q => some (none, q)
  | level + 1, list, stop, ret, q =>
    (after (lv level) list).bind fun l => (askScan f stop l q ret).bind fun r =>
      match r.2.1 with
      | none => none
      | some (walk, v) =>
        if v = 0 then some (some (walk, level + 1), r.2.2)
        else (prev (lv level) r.1).bind fun p => askFindLoop lv f level p r.1 (some (walk, v)) r.2.2

/-- The outer loop of `bfdev_skiplist_insert`, skiplist.c:83-97. -/
def askInsertLoop (f : Nat → Nat → Int) (n level : Nat) :
    Nat → (Nat → List Nat) → Option Nat → Option Nat → Option (Nat × Int) → Asked → Option ((Nat → List Nat) × Asked)
  | 0, lv, _, _, _, q => some (lv, q)
  | count + 1, lv, list, stop, ret, q =>
    (after (lv count) list).bind fun l => (askScan f stop l q ret).bind fun r => (prev (lv count) r.1).bind fun p =>
      if count < level then (add (lv count) n p).bind fun l => askInsertLoop f n level count (upd lv count l) p r.1 r.2.1 r.2.2
      else askInsertLoop f n level count lv p r.1 r.2.1 r.2.2

variable {κ : Type}

/-- `skipnode_find`, skiplist.c:25-61. -/
def askNodeFind (s : Skip κ) (f : Nat → κ → Int) : Option (Option (Nat × Nat) × Asked) := askFindLoop s.lv (fun k x => f k (s.key x)) s.curr none none none []

/-- `bfdev_skiplist_find`, skiplist.c:123-130. -/
def askFind (s : Skip κ) (f : Nat → κ → Int) : Option (Option Nat × Asked) := (askNodeFind s f).map fun r => (r.1.map (·.1), r.2)

/-- `bfdev_skiplist_insert`, skiplist.c:63-100. -/
def askInsert (s : Skip κ) (key : κ) (f : Nat → κ → Int) (rand : Nat → Nat) (new : Option Nat) : Option (Skip κ × Int × Asked) :=
  (randomLevel s.levels rand).bind fun level =>
    let s := { s with curr := max s.curr level }
    match new with
    | none => some (s, -12, [])
    | some n =>
      let s := { s with key := upd s.key n key, live := n :: s.live }
      (askInsertLoop (fun k x => f k (s.key x)) n level s.curr s.lv none none none []).map fun r => ({ s with lv := r.1 }, 0, r.2)

/-- `bfdev_skiplist_delete`, skiplist.c:102-121. -/
def askDelete (s : Skip κ) (f : Nat → κ → Int) : Option (Skip κ × Asked) :=
  (askNodeFind s f).bind fun r =>
    match r.1 with
    | none => some (s, r.2)
    | some (n, level) => (deleteLoop n level s).bind fun s => if n ∈ s.live then some ({ s with live := s.live.erase n }, r.2) else none

/-! ## Specification -/

/-- Skip lists after histories in which every call of every callback was answered in any way. As in C24, an insertion may only be refused memory if the level
drawn for it is not above all others. -/
inductive Reached : Skip κ → Prop
  | new {levels key s} : create levels key = some s → Reached s
  | insert {s : Skip κ} {key f rand n s' ret q} : Reached s → n ∉ s.live → askInsert s key f rand (some n) = some (s', ret, q) → Reached s'
  | refused {s : Skip κ} {key f rand s' ret q} : Reached s → (∀ level, randomLevel s.levels rand = some level → level ≤ s.curr) →
      askInsert s key f rand none = some (s', ret, q) → Reached s'
  | delete {s : Skip κ} {f s' q} : Reached s → askDelete s f = some (s', q) → Reached s'
  | reset {s : Skip κ} {s' ks} : Reached s → reset s = some (s', ks) → Reached s'

/-- Every level is a part of the one below, in the same order, and the lowest level consists of the nodes allocated. -/
structure Linked (s : Skip κ) : Prop where
  levels : ∀ k, (s.lv (k + 1)).Sublist (s.lv k)
  top : ∀ k, s.levels ≤ k → s.lv k = []
  nodes : (s.lv 0).Nodup ∧ ∀ n, n ∈ s.lv 0 ↔ n ∈ s.live

/-- Only nodes of the list were asked about, and none of them twice. -/
def Once (q : Asked) (s : Skip κ) : Prop := (q.map (·.1)).Nodup ∧ ∀ p ∈ q, p.1 ∈ s.lv 0

/-! ## With callbacks that do not change their mind this is the model of the skip list -/

theorem askScan_plain (c : Nat → Int) (stop : Option Nat) : ∀ (l : List Nat) (q : Asked) (ret : Option (Nat × Int)),
    (askScan (fun _ => c) stop l q ret).map (fun r => (r.1, r.2.1)) = scan c stop l ret := by
  intro l
  induction l with
  | nil => intro q ret; rw [askScan, scan]; split <;> rfl
  | cons x l ih =>
    intro q ret
    rw [askScan, scan]
    split
    · rfl
    · split
      · rfl
      · exact ih _ _

theorem askFindLoop_plain (lv : Nat → List Nat) (c : Nat → Int) : ∀ (k : Nat) (list stop : Option Nat) (ret : Option (Nat × Int)) (q : Asked),
    (askFindLoop lv (fun _ => c) k list stop ret q).map (·.1) = findLoop lv c k list stop ret := by
  intro k
  induction k with
  | zero => intro _ _ _ _; rfl
  | succ k ih =>
    intro list stop ret q
    rw [askFindLoop, findLoop]
    cases after (lv k) list with
    | none => rfl
    | some l =>
      rw [Option.bind_some, Option.bind_some, ← askScan_plain c stop l q ret]
      cases askScan (fun _ => c) stop l q ret with
      | none => rfl
      | some r =>
        obtain ⟨e, w, q'⟩ := r
        simp only [Option.bind_some, Option.map_some]
        cases w with
        | none => rfl
        | some wv =>
          dsimp only
          split
          · rfl
          · cases prev (lv k) e with
            | none => rfl
            | some p => exact ih _ _ _ _

/-- Searching with a fixed callback is the search of C24. -/
theorem askFind_plain (s : Skip κ) (c : κ → Int) : (askFind s (fun _ => c)).map (·.1) = find s c := by
  unfold askFind find nodeFind askNodeFind
  rw [← askFindLoop_plain s.lv (fun x => c (s.key x)) s.curr none none none [], Option.map_map, Option.map_map]
  rfl

theorem askInsertLoop_plain (c : Nat → Int) (n level : Nat) : ∀ (k : Nat) (lv : Nat → List Nat) (list stop : Option Nat) (ret : Option (Nat × Int)) (q : Asked),
    (askInsertLoop (fun _ => c) n level k lv list stop ret q).map (·.1) = insertLoop c n level k lv list stop ret := by
  intro k
  induction k with
  | zero => intro _ _ _ _ _; rfl
  | succ k ih =>
    intro lv list stop ret q
    rw [askInsertLoop, insertLoop]
    cases after (lv k) list with
    | none => rfl
    | some l =>
      rw [Option.bind_some, Option.bind_some, ← askScan_plain c stop l q ret]
      cases askScan (fun _ => c) stop l q ret with
      | none => rfl
      | some r =>
        obtain ⟨e, w, q'⟩ := r
        simp only [Option.bind_some, Option.map_some]
        cases prev (lv k) e with
        | none => rfl
        | some p =>
          simp only [Option.bind_some]
          split
          · cases add (lv k) n p with
            | none => rfl
            | some l => exact ih _ _ _ _ _
          · exact ih _ _ _ _ _

/-- Inserting with a fixed callback is the insertion of C24. -/
theorem askInsert_plain (s : Skip κ) (key : κ) (cmp : κ → κ → Int) (rand : Nat → Nat) (new : Option Nat) :
    (askInsert s key (fun _ k => cmp k key) rand new).map (fun r => (r.1, r.2.1)) = insert s key cmp rand new := by
  unfold askInsert insert
  cases randomLevel s.levels rand with
  | none => rfl
  | some level =>
    cases new with
    | none => rfl
    | some n =>
      simp only [Option.bind_some]
      rw [← askInsertLoop_plain _ n level _ _ _ _ _ [], Option.map_map, Option.map_map]
      rfl

/-- Deleting with a fixed callback is the deletion of C24. -/
theorem askDelete_plain (s : Skip κ) (c : κ → Int) : (askDelete s (fun _ => c)).map (·.1) = delete s c := by
  unfold askDelete delete nodeFind askNodeFind
  rw [← askFindLoop_plain s.lv (fun x => c (s.key x)) s.curr none none none []]
  cases askFindLoop s.lv (fun _ x => c (s.key x)) s.curr none none none [] with
  | none => rfl
  | some r =>
    simp only [Option.bind_some, Option.map_some]
    cases r.1 with
    | none => rfl
    | some nl =>
      dsimp only
      cases deleteLoop nl.1 nl.2 s with
      | none => rfl
      | some s' =>
        simp only [Option.bind_some]
        split <;> rfl

/-! ## Proofs -/

theorem tight_right (p : Nat → Bool) (l : List Nat) : ∃ Q R, l = Q ++ R ∧ Q.filter p = [] ∧ R.filter p = l.filter p ∧ R.head? = (l.filter p).head? := by
  induction l with
  | nil => exact ⟨[], [], rfl, rfl, rfl, rfl⟩
  | cons x l ih =>
    by_cases hx : p x = true
    · exact ⟨[], x :: l, rfl, rfl, rfl, by rw [List.filter_cons, if_pos hx]; rfl⟩
    · obtain ⟨Q, R, h1, h2, h3, h4⟩ := ih
      refine ⟨x :: Q, R, by rw [h1]; rfl, by rw [List.filter_cons, if_neg hx, h2], by rw [List.filter_cons, if_neg hx, h3], by rw [List.filter_cons, if_neg hx, h4]⟩

theorem tight_left (p : Nat → Bool) (l : List Nat) : ∃ P Q, l = P ++ Q ∧ Q.filter p = [] ∧ P.filter p = l.filter p ∧ P.getLast? = (l.filter p).getLast? := by
  obtain ⟨Q, R, h1, h2, h3, h4⟩ := tight_right p l.reverse
  have e : l = R.reverse ++ Q.reverse := by rw [← List.reverse_append, ← h1, List.reverse_reverse]
  refine ⟨R.reverse, Q.reverse, e, by rw [List.filter_reverse, h2]; rfl, by rw [List.filter_reverse, h3, List.filter_reverse, List.reverse_reverse], ?_⟩
  rw [List.getLast?_reverse, h4, List.filter_reverse, List.head?_reverse]

theorem after_split {P Z : List Nat} (h : (P ++ Z).Nodup) : after (P ++ Z) P.getLast? = some Z := by
  rcases List.eq_nil_or_concat P with rfl | ⟨P', x, rfl⟩
  · rfl
  · rw [List.concat_eq_append] at *
    have hx : x ∉ P' := by
      have := (List.nodup_append.1 h).1
      exact fun hh => (List.nodup_append.1 this).2.2 x hh x (by simp) rfl
    rw [List.getLast?_concat, List.append_assoc, List.singleton_append]
    exact after_mid hx

/-- The inner loop stops before `R` at the latest. -/
theorem askScan_ok (f : Nat → Nat → Int) (R : List Nat) : ∀ (Q : List Nat) (q : Asked), (Q ++ R).Nodup →
    ∃ W Z r, Q = W ++ Z ∧ askScan f R.head? (Q ++ R) q q.getLast? = some ((Z ++ R).head?, (q ++ r).getLast?, q ++ r) ∧
      r.map (·.1) <+: Q ∧ (∀ p ∈ r.dropLast, p.2 < 0) ∧ (Q ≠ [] → r ≠ []) := by
  intro Q
  induction Q with
  | nil =>
    intro q _
    refine ⟨[], [], [], rfl, ?_, by simp, by simp, by simp⟩
    cases R with
    | nil => rw [List.nil_append, askScan]; simp
    | cons y R => rw [List.nil_append, List.head?_cons, askScan, if_pos rfl]; simp
  | cons x Q ih =>
    intro q h
    have hne : R.head? ≠ some x := fun e => (List.nodup_cons.1 h).1 (List.mem_append_right _ (head_mem e))
    rw [List.cons_append, askScan, if_neg hne]
    by_cases hx : f q.length x ≥ 0
    · rw [if_pos hx]
      exact ⟨[], x :: Q, [(x, f q.length x)], rfl, by simp, by simp, by simp, by simp⟩
    · rw [if_neg hx]
      obtain ⟨W, Z, r, h1, h2, h3, h4, h5⟩ := ih (q ++ [(x, f q.length x)]) (List.nodup_cons.1 h).2
      rw [List.getLast?_concat] at h2
      refine ⟨x :: W, Z, (x, f q.length x) :: r, by rw [h1]; rfl, by rw [h2]; simp, by simpa using h3, ?_, by simp⟩
      intro p hp
      cases r with
      | nil => simp at hp
      | cons y r =>
        rw [List.dropLast_cons_cons] at hp
        rcases List.mem_cons.1 hp with rfl | hp
        · exact Int.not_le.1 hx
        · exact h4 p hp

/-- One level of the search: it starts between two neighbours of the level above and ends between two neighbours of this level. Only nodes that
are not on the level above are asked about. -/
theorem askLevel (f : Nat → Nat → Int) {ht : Nat → Nat} {L X Y : List Nat} {k : Nat} (hnd : L.Nodup) (h : F ht (k + 1) L = X ++ Y) (q : Asked) :
    ∃ l X' Y' r, F ht k L = X' ++ Y' ∧ F ht (k + 1) X' = X ∧ F ht (k + 1) Y' = Y ∧ after (F ht k L) X.getLast? = some l ∧
      askScan f Y.head? l q q.getLast? = some (Y'.head?, (q ++ r).getLast?, q ++ r) ∧ prev (F ht k L) Y'.head? = some X'.getLast? ∧
      (r.map (·.1)).Nodup ∧ (∀ p ∈ r, p.1 ∈ L ∧ ht p.1 = k + 1) ∧ (∀ p ∈ r.dropLast, p.2 < 0) ∧ (X = [] → Y = [] → F ht k L ≠ [] → r ≠ []) := by
  have hk : (F ht k L).Nodup := F_nodup hnd
  rw [F_F] at h
  obtain ⟨l1, l2, e, e1, e2⟩ := List.filter_eq_append_iff.1 h
  obtain ⟨P, Q1, a1, a2, a3, a4⟩ := tight_left (fun x => decide (k + 1 < ht x)) l1
  obtain ⟨Q2, R, b1, b2, b3, b4⟩ := tight_right (fun x => decide (k + 1 < ht x)) l2
  rw [e1] at a3 a4
  rw [e2] at b3 b4
  have hall : F ht k L = P ++ ((Q1 ++ Q2) ++ R) := by rw [e, a1, b1]; simp
  rw [hall] at hk
  obtain ⟨n1, n2, n3⟩ := List.nodup_append.1 hk
  have hQ : (Q1 ++ Q2).filter (fun x => decide (k + 1 < ht x)) = [] := by rw [List.filter_append, a2, b2]; rfl
  obtain ⟨W, Z, r, c1, c2, c3, c4, c5⟩ := askScan_ok f R (Q1 ++ Q2) q n2
  have hW : W.filter (fun x => decide (k + 1 < ht x)) = [] ∧ Z.filter (fun x => decide (k + 1 < ht x)) = [] := by
    rw [c1, List.filter_append] at hQ
    exact List.append_eq_nil_iff.1 hQ
  refine ⟨(Q1 ++ Q2) ++ R, P ++ W, Z ++ R, r, by rw [hall, c1]; simp, ?_, ?_, ?_, ?_, ?_, ?_, ?_, c4, ?_⟩
  · rw [F_append]; show P.filter _ ++ W.filter _ = X; rw [a3, hW.1, List.append_nil]
  · rw [F_append]; show Z.filter _ ++ R.filter _ = Y; rw [b3, hW.2]; rfl
  · rw [hall, ← a4]; exact after_split hk
  · rw [← b4]; exact c2
  · rw [hall, c1, show P ++ ((W ++ Z) ++ R) = (P ++ W) ++ (Z ++ R) by simp]
    refine prev_mid ?_
    rw [c1, show P ++ ((W ++ Z) ++ R) = (P ++ W) ++ (Z ++ R) by simp] at hk
    exact hk
  · exact (List.nodup_append.1 n2).1.sublist c3.sublist
  · intro p hp
    have hm : p.1 ∈ Q1 ++ Q2 := c3.subset (List.mem_map_of_mem hp)
    have hF : p.1 ∈ F ht k L := by rw [hall]; exact List.mem_append_right _ (List.mem_append_left _ hm)
    have h1 := F_mem.1 hF
    have h2 := List.filter_eq_nil_iff.1 hQ p.1 hm
    simp at h2
    exact ⟨h1.1, by omega⟩
  · intro hX hY hne
    refine c5 fun hQ0 => hne ?_
    rw [hX] at a4
    rw [hY] at b4
    rw [hall, hQ0, List.getLast?_eq_none_iff.1 a4, List.head?_eq_none_iff.1 b4]
    rfl

theorem askFindLoop_ok (f : Nat → Nat → Int) {ht : Nat → Nat} {L : List Nat} {lv : Nat → List Nat} (hnd : L.Nodup) (hlv : ∀ k, lv k = F ht k L) :
    ∀ (k : Nat) (X Y : List Nat) (q : Asked), F ht k L = X ++ Y → (∀ p ∈ q, p.2 ≠ 0) → (q = [] → 0 < k → F ht k L = [] ∧ F ht (k - 1) L ≠ []) →
      ∃ res r, askFindLoop lv f k X.getLast? Y.head? q.getLast? q = some (res, q ++ r) ∧ (r.map (·.1)).Nodup ∧ (∀ p ∈ r, p.1 ∈ L ∧ ht p.1 ≤ k) ∧
        (res = none → ∀ p ∈ q ++ r, p.2 ≠ 0) ∧ ∀ w l, res = some (w, l) → (q ++ r).getLast? = some (w, 0) ∧ (∀ p ∈ (q ++ r).dropLast, p.2 ≠ 0) ∧ w ∈ L ∧ l = ht w := by
  intro k
  induction k with
  | zero =>
    intro X Y q _ hq _
    exact ⟨none, [], by simp [askFindLoop], by simp, by simp, fun _ p hp => hq p (by simpa using hp), by simp⟩
  | succ k ih =>
    intro X Y q h hq h0
    obtain ⟨l, X', Y', r, a1, a2, a3, a4, a5, a6, a7, a8, a9, a10⟩ := askLevel f hnd h q
    rw [askFindLoop, hlv k, a4, Option.bind_some, a5, Option.bind_some]
    dsimp only
    have hne : q ++ r ≠ [] := by
      intro hh
      obtain ⟨hq0, hr0⟩ := List.append_eq_nil_iff.1 hh
      obtain ⟨h1, h2⟩ := h0 hq0 (by omega)
      rw [h] at h1
      obtain ⟨hX, hY⟩ := List.append_eq_nil_iff.1 h1
      exact a10 hX hY h2 hr0
    obtain ⟨⟨w, v⟩, hlast⟩ : ∃ x, (q ++ r).getLast? = some x := ⟨_, List.getLast?_eq_some_getLast hne⟩
    rw [hlast]
    dsimp only
    have hdrop : ∀ p ∈ (q ++ r).dropLast, p.2 ≠ 0 := by
      intro p hp
      by_cases hr : r = []
      · subst hr
        rw [List.append_nil] at hp
        exact hq p (List.dropLast_subset _ hp)
      · rw [List.dropLast_append_of_ne_nil hr] at hp
        rcases List.mem_append.1 hp with hp | hp
        · exact hq p hp
        · have := a9 p hp; omega
    by_cases hv : v = 0
    · rw [if_pos hv]
      subst hv
      have hwr : (w, (0 : Int)) ∈ r := by
        rcases List.mem_append.1 (List.mem_of_getLast? hlast) with hm | hm
        · exact absurd rfl (hq _ hm)
        · exact hm
      refine ⟨some (w, k + 1), r, rfl, a7, fun p hp => ⟨(a8 p hp).1, by rw [(a8 p hp).2]; omega⟩, fun e => (by cases e), fun w' l' e => ?_⟩
      cases e
      exact ⟨hlast, hdrop, (a8 _ hwr).1, ((a8 _ hwr).2).symm⟩
    · rw [if_neg hv, a6, Option.bind_some]
      have hq' : ∀ p ∈ q ++ r, p.2 ≠ 0 := by
        intro p hp
        rw [← List.dropLast_concat_getLast hne] at hp
        rcases List.mem_append.1 hp with hp | hp
        · exact hdrop p hp
        · rw [List.mem_singleton.1 hp]
          have : (q ++ r).getLast hne = (w, v) := by rw [List.getLast?_eq_some_getLast hne] at hlast; exact Option.some.inj hlast
          rw [this]; exact hv
      obtain ⟨res, r', b1, b2, b3, b4, b5⟩ := ih X' Y' (q ++ r) a1 hq' (fun e => absurd e hne)
      rw [hlast] at b1
      refine ⟨res, r ++ r', by rw [b1]; simp, ?_, ?_, by rw [← List.append_assoc]; exact b4, by rw [← List.append_assoc]; exact b5⟩
      · rw [List.map_append, List.nodup_append]
        refine ⟨a7, b2, fun a ha b hb e => ?_⟩
        obtain ⟨p, hp, rfl⟩ := List.mem_map.1 ha
        obtain ⟨p', hp', rfl⟩ := List.mem_map.1 hb
        have h1 := (a8 p hp).2
        have h2 := (b3 p' hp').2
        rw [e] at h1
        omega
      · intro p hp
        rcases List.mem_append.1 hp with hp | hp
        · exact ⟨(a8 p hp).1, by rw [(a8 p hp).2]; omega⟩
        · exact ⟨(b3 p hp).1, by have := (b3 p hp).2; omega⟩

theorem askInsertLoop_ok (f : Nat → Nat → Int) {ht : Nat → Nat} {L : List Nat} (hnd : L.Nodup) (hpos : ∀ x ∈ L, 0 < ht x) (n level : Nat) :
    ∀ (k : Nat) (lv : Nat → List Nat) (X Y : List Nat) (q : Asked), (∀ j, j < k → lv j = F ht j L) → F ht k L = X ++ Y →
      ∃ A B r, L = A ++ B ∧ F ht k A = X ∧ F ht k B = Y ∧
        askInsertLoop f n level k lv X.getLast? Y.head? q.getLast? q = some (fun j => if j < k ∧ j < level then F ht j A ++ n :: F ht j B else lv j, q ++ r) ∧
        (r.map (·.1)).Nodup ∧ ∀ p ∈ r, p.1 ∈ L ∧ ht p.1 ≤ k := by
  intro k
  induction k with
  | zero =>
    intro lv X Y q _ h
    rw [F_zero hpos] at h
    refine ⟨X, Y, [], h, F_zero fun x hx => hpos x (by rw [h]; simp [hx]), F_zero fun x hx => hpos x (by rw [h]; simp [hx]), ?_, by simp, by simp⟩
    rw [askInsertLoop, List.append_nil]
    simp
  | succ k ih =>
    intro lv X Y q hlv h
    obtain ⟨l, X', Y', r, a1, a2, a3, a4, a5, a6, a7, a8, _, _⟩ := askLevel f hnd h q
    rw [askInsertLoop, hlv k (by omega), a4, Option.bind_some, a5, Option.bind_some]
    dsimp only
    rw [a6, Option.bind_some]
    have hFF : ∀ A' : List Nat, F ht (k + 1) A' = F ht (k + 1) (F ht k A') := F_F ht k
    have fin : ∀ (lv' : Nat → List Nat), (∀ j, j < k → lv' j = F ht j L) →
        ∃ A B r', L = A ++ B ∧ F ht k A = X' ∧ F ht k B = Y' ∧ F ht (k + 1) A = X ∧ F ht (k + 1) B = Y ∧
          askInsertLoop f n level k lv' X'.getLast? Y'.head? (q ++ r).getLast? (q ++ r) =
            some (fun j => if j < k ∧ j < level then F ht j A ++ n :: F ht j B else lv' j, q ++ (r ++ r')) ∧
          ((r ++ r').map (·.1)).Nodup ∧ ∀ p ∈ r ++ r', p.1 ∈ L ∧ ht p.1 ≤ k + 1 := by
      intro lv' hlv'
      obtain ⟨A, B, r', b1, b2, b3, b4, b5, b6⟩ := ih lv' X' Y' (q ++ r) hlv' a1
      refine ⟨A, B, r', b1, b2, b3, by rw [hFF, b2]; exact a2, by rw [hFF, b3]; exact a3, by rw [b4]; simp, ?_, ?_⟩
      · rw [List.map_append, List.nodup_append]
        refine ⟨a7, b5, fun a ha b hb e => ?_⟩
        obtain ⟨p, hp, rfl⟩ := List.mem_map.1 ha
        obtain ⟨p', hp', rfl⟩ := List.mem_map.1 hb
        have h1 := (a8 p hp).2
        have h2 := (b6 p' hp').2
        rw [e] at h1
        omega
      · intro p hp
        rcases List.mem_append.1 hp with hp | hp
        · exact ⟨(a8 p hp).1, by rw [(a8 p hp).2]; omega⟩
        · exact ⟨(b6 p hp).1, by have := (b6 p hp).2; omega⟩
    by_cases hk : k < level
    · rw [if_pos hk, a1, add_mid (by rw [← a1]; exact F_nodup hnd), Option.bind_some]
      obtain ⟨A, B, r', b1, b2, b3, b2', b3', b4, b5, b6⟩ := fin (upd lv k (X' ++ n :: Y')) (fun j hj => by unfold upd; rw [if_neg (by omega)]; exact hlv j (by omega))
      refine ⟨A, B, r ++ r', b1, b2', b3', ?_, b5, b6⟩
      rw [b4]
      congr 2
      funext j
      unfold upd
      by_cases hj : j = k
      · subst hj
        rw [if_neg (by omega), if_pos rfl, if_pos (by omega), b2, b3]
      · by_cases hj2 : j < k ∧ j < level
        · rw [if_pos hj2, if_pos (by omega)]
        · rw [if_neg hj2, if_neg hj, if_neg (by omega)]
    · rw [if_neg hk]
      obtain ⟨A, B, r', b1, b2, b3, b2', b3', b4, b5, b6⟩ := fin lv (fun j hj => hlv j (by omega))
      refine ⟨A, B, r ++ r', b1, b2', b3', ?_, b5, b6⟩
      rw [b4]
      congr 2
      funext j
      by_cases hj2 : j < k ∧ j < level
      · rw [if_pos hj2, if_pos (by omega)]
      · rw [if_neg hj2, if_neg (by omega)]

/-- The shape of the list, without its order. -/
abbrev Shape (s : Skip κ) (ht : Nat → Nat) : Prop := Inv (fun _ _ => 0) s ht

theorem askNodeFind_ok {s : Skip κ} {ht : Nat → Nat} (h : Shape s ht) (f : Nat → κ → Int) :
    ∃ r q, askNodeFind s f = some (r, q) ∧ Once q s ∧ (r = none → ∀ p ∈ q, p.2 ≠ 0) ∧
      ∀ w l, r = some (w, l) → q.getLast? = some (w, 0) ∧ (∀ p ∈ q.dropLast, p.2 ≠ 0) ∧ w ∈ s.lv 0 ∧ l = ht w := by
  have hF : F ht s.curr (s.lv 0) = [] := F_top fun x hx => (h.pos x hx).2
  obtain ⟨res, r, a1, a2, a3, a4, a5⟩ := askFindLoop_ok (fun k x => f k (s.key x)) (L := s.lv 0) (lv := s.lv) h.nd h.lv s.curr [] [] []
    (by rw [hF]; rfl) (by simp) (fun _ h0 => ⟨hF, by rw [← h.lv]; exact h.top h0⟩)
  exact ⟨res, r, a1, ⟨a2, fun p hp => (a3 p hp).1⟩, by simpa using a4, by simpa using a5⟩

theorem askDelete_ok {s : Skip κ} {ht : Nat → Nat} (h : Shape s ht) (f : Nat → κ → Int) :
    ∃ s' q, askDelete s f = some (s', q) ∧ Shape s' ht ∧ Once q s ∧ s'.key = s.key ∧
      ((s' = s ∧ ∀ p ∈ q, p.2 ≠ 0) ∨ ∃ n ∈ s.lv 0, q.getLast? = some (n, 0) ∧ s'.lv 0 = (s.lv 0).erase n ∧ s'.live = s.live.erase n) := by
  obtain ⟨r, q, e, hq, h1, h2⟩ := askNodeFind_ok h f
  cases r with
  | none =>
    refine ⟨s, q, ?_, h, hq, rfl, Or.inl ⟨rfl, h1 rfl⟩⟩
    unfold askDelete
    rw [e]
    rfl
  | some wl =>
    obtain ⟨n, l⟩ := wl
    obtain ⟨hcn, -, hn, hl⟩ := h2 n l rfl
    have hpos := h.pos n hn
    have hin : ∀ j, j < l → n ∈ s.lv j := by
      intro j hj
      rw [h.lv]
      exact F_mem.2 ⟨hn, by omega⟩
    obtain ⟨cur, e2, hcur⟩ := deleteLoop_ok n l s hin
    have hlive := (h.live n).1 hn
    have herase : ∀ j, (if j < l then (s.lv j).erase n else s.lv j) = (s.lv j).erase n := by
      intro j
      split
      · rfl
      · rw [List.erase_of_not_mem]
        rw [h.lv]
        exact fun hh => by have := (F_mem.1 hh).2; omega
    have hlv : (fun j => if j < l then (s.lv j).erase n else s.lv j) = fun j => (s.lv j).erase n := funext herase
    rw [hlv] at e2
    refine ⟨{ s with lv := fun j => (s.lv j).erase n, curr := cur, live := s.live.erase n }, q, ?_, ?_, hq, rfl, Or.inr ⟨n, hn, hcn, rfl, rfl⟩⟩
    · unfold askDelete
      rw [e, Option.bind_some]
      dsimp only
      rw [e2, Option.bind_some]
      exact if_pos hlive
    · refine ⟨?_, ?_, ?_, ?_, h.nd.erase _, h.lnd.erase _, perm_erase_live h.nd h.lnd h.live, ?_, h.lpos⟩
      · intro k
        show (s.lv k).erase n = F ht k ((s.lv 0).erase n)
        rw [F_erase h.nd, ← h.lv]
      · intro x hx
        have hx : x ∈ (s.lv 0).erase n := hx
        rw [h.nd.mem_erase_iff] at hx
        have hp := h.pos x hx.2
        refine ⟨hp.1, ?_⟩
        show ht x ≤ cur
        rcases hcur with ⟨h3, -⟩ | ⟨h3, h4, -⟩
        · omega
        · rcases Nat.lt_or_ge cur (ht x) with h5 | h5
          · have : x ∈ (s.lv cur).erase n := by
              rw [h.lv, (F_nodup h.nd).mem_erase_iff]
              exact ⟨hx.1, F_mem.2 ⟨hx.2, h5⟩⟩
            rw [h4] at this
            cases this
          · exact h5
      · show cur ≤ s.levels
        have := h.cur
        omega
      · intro h0
        have h0 : 0 < cur := h0
        show (s.lv (cur - 1)).erase n ≠ []
        rcases hcur with ⟨h3, h4⟩ | ⟨h3, -, h4⟩
        · rcases Nat.lt_or_ge (cur - 1) l with h5 | h5
          · exact h4 _ h5
          · rw [← herase, if_neg (by omega), h3]
            exact h.top (by omega)
        · exact h4 _ (by omega)
      · exact List.pairwise_of_forall fun _ _ => Int.le_refl _

theorem askInsert_level {s : Skip κ} {ht : Nat → Nat} (h : Shape s ht) (key : κ) (f : Nat → κ → Int) (rand : Nat → Nat) {n : Nat} (hn : n ∉ s.live) :
    ∃ s' level A B q, randomLevel s.levels rand = some level ∧ askInsert s key f rand (some n) = some (s', 0, q) ∧ Shape s' (upd ht n level) ∧ Once q s ∧
      s.lv 0 = A ++ B ∧ s'.lv 0 = A ++ n :: B ∧ s'.key = upd s.key n key ∧ s'.live = n :: s.live ∧ s'.levels = s.levels := by
  obtain ⟨level, e1, hl1, hl2⟩ := random_level h.lpos rand
  have hn0 : n ∉ s.lv 0 := fun hh => hn ((h.live n).1 hh)
  have hF : F ht (max s.curr level) (s.lv 0) = [] := F_top fun x hx => by have := (h.pos x hx).2; omega
  obtain ⟨A, B, q, e, -, -, hloop, hq1, hq2⟩ := askInsertLoop_ok (fun k x => f k (upd s.key n key x)) (ht := ht) h.nd (fun x hx => (h.pos x hx).1) n level
    (max s.curr level) s.lv [] [] [] (fun j _ => h.lv j) (by rw [hF]; rfl)
  have hnA : n ∉ A := fun hh => hn0 (by rw [e]; simp [hh])
  have hnB : n ∉ B := fun hh => hn0 (by rw [e]; simp [hh])
  have hj : ∀ j, (if j < max s.curr level ∧ j < level then F ht j A ++ n :: F ht j B else s.lv j) = F (upd ht n level) j (A ++ n :: B) := by
    intro j
    have hun : upd ht n level n = level := if_pos rfl
    rw [F_append, F_upd hnA]
    split
    · rename_i hlt
      have : F (upd ht n level) j (n :: B) = n :: F (upd ht n level) j B := by
        unfold F
        rw [List.filter_cons, if_pos (by rw [hun]; simpa using hlt.2)]
      rw [this, F_upd hnB]
    · rename_i hlt
      have : F (upd ht n level) j (n :: B) = F (upd ht n level) j B := by
        unfold F
        rw [List.filter_cons, if_neg (by rw [hun]; simp; omega)]
      rw [this, F_upd hnB, ← F_append, ← e]
      exact h.lv j
  have hlv : (fun j => if j < max s.curr level ∧ j < level then F ht j A ++ n :: F ht j B else s.lv j) = fun j => F (upd ht n level) j (A ++ n :: B) := funext hj
  rw [hlv, List.getLast?_nil, List.head?_nil, List.nil_append] at hloop
  have hz : F (upd ht n level) 0 (A ++ n :: B) = A ++ n :: B := by
    refine F_zero fun x hx => ?_
    unfold upd
    split
    · omega
    · rename_i hne
      refine (h.pos x ?_).1
      rw [e]
      rcases List.mem_append.1 hx with hx | hx
      · simp [hx]
      · rcases List.mem_cons.1 hx with hx | hx
        · exact absurd hx hne
        · simp [hx]
  have hnd : (A ++ n :: B).Nodup := by
    have := h.nd
    rw [e] at this
    refine (List.perm_middle.nodup_iff).2 (List.nodup_cons.2 ⟨?_, this⟩)
    simp [hnA, hnB]
  refine ⟨⟨s.levels, max s.curr level, fun j => F (upd ht n level) j (A ++ n :: B), upd s.key n key, n :: s.live⟩, level, A, B, q, e1, ?_, ?_, ⟨hq1, fun p hp => (hq2 p hp).1⟩, e, hz, rfl, rfl, rfl⟩
  · unfold askInsert
    rw [e1, Option.bind_some]
    dsimp only
    rw [show askInsertLoop (fun k x => f k (upd s.key n key x)) n level (max s.curr level) s.lv none none none [] = _ from hloop]
    rfl
  · refine ⟨?_, ?_, ?_, ?_, ?_, List.nodup_cons.2 ⟨hn, h.lnd⟩, ?_, ?_, h.lpos⟩
    · intro k
      show F (upd ht n level) k (A ++ n :: B) = F (upd ht n level) k (F (upd ht n level) 0 (A ++ n :: B))
      rw [hz]
    · intro x hx
      have hx : x ∈ F (upd ht n level) 0 (A ++ n :: B) := hx
      refine ⟨(F_mem.1 hx).2, ?_⟩
      show upd ht n level x ≤ max s.curr level
      rw [hz] at hx
      unfold upd
      split
      · omega
      · rename_i hne
        have : x ∈ s.lv 0 := by
          rw [e]
          rcases List.mem_append.1 hx with hx | hx
          · simp [hx]
          · rcases List.mem_cons.1 hx with hx | hx
            · exact absurd hx hne
            · simp [hx]
        have := (h.pos x this).2
        omega
    · show max s.curr level ≤ s.levels
      have := h.cur
      omega
    · intro _
      show F (upd ht n level) (max s.curr level - 1) (A ++ n :: B) ≠ []
      rcases Nat.lt_or_ge s.curr level with h1 | h1
      · refine List.ne_nil_of_mem (a := n) (F_mem.2 ⟨by simp, ?_⟩)
        unfold upd
        rw [if_pos rfl]
        omega
      · have ht := h.top (by omega)
        obtain ⟨x, hx⟩ := List.exists_mem_of_ne_nil _ ht
        rw [h.lv, e] at hx
        obtain ⟨hx1, hx2⟩ := F_mem.1 hx
        refine List.ne_nil_of_mem (a := x) (F_mem.2 ⟨?_, ?_⟩)
        · rcases List.mem_append.1 hx1 with hx | hx <;> simp [hx]
        · unfold upd
          rw [if_neg]
          · rw [show max s.curr level - 1 = s.curr - 1 by omega]; exact hx2
          · intro e2
            rw [← e] at hx1
            exact hn0 (e2 ▸ hx1)
    · show (F (upd ht n level) 0 (A ++ n :: B)).Nodup
      rw [hz]; exact hnd
    · intro m
      show m ∈ F (upd ht n level) 0 (A ++ n :: B) ↔ m ∈ n :: s.live
      rw [hz, List.mem_cons, ← h.live m, e]
      simp only [List.mem_append, List.mem_cons]
      constructor
      · rintro (h | h | h)
        · exact Or.inr (Or.inl h)
        · exact Or.inl h
        · exact Or.inr (Or.inr h)
      · rintro (h | h | h)
        · exact Or.inr (Or.inl h)
        · exact Or.inl h
        · exact Or.inr (Or.inr h)
    · exact List.pairwise_of_forall fun _ _ => Int.le_refl _

theorem askInsert_ok {s : Skip κ} {ht : Nat → Nat} (h : Shape s ht) (key : κ) (f : Nat → κ → Int) (rand : Nat → Nat) {n : Nat} (hn : n ∉ s.live) :
    ∃ s' ht' A B q, askInsert s key f rand (some n) = some (s', 0, q) ∧ Shape s' ht' ∧ Once q s ∧ s.lv 0 = A ++ B ∧ s'.lv 0 = A ++ n :: B ∧
      s'.key = upd s.key n key ∧ s'.live = n :: s.live := by
  obtain ⟨s', level, A, B, q, -, a1, a2, a3, a4, a5, a6, a7, -⟩ := askInsert_level h key f rand hn
  exact ⟨s', _, A, B, q, a1, a2, a3, a4, a5, a6, a7⟩

theorem Reached.shape {s : Skip κ} (h : Reached s) : ∃ ht, Shape s ht := by
  induction h with
  | new e => exact ⟨_, Inv.new e⟩
  | insert _ hn e ih =>
    obtain ⟨ht, ih⟩ := ih
    obtain ⟨s', ht', A, B, q, e', h', -⟩ := askInsert_ok ih _ _ _ hn
    rw [e] at e'
    cases e'
    exact ⟨ht', h'⟩
  | @refused s key f rand s' ret q _ hl e ih =>
    obtain ⟨ht, ih⟩ := ih
    obtain ⟨level, e1, -⟩ := random_level ih.lpos rand
    unfold askInsert at e
    rw [e1, Option.bind_some] at e
    dsimp only at e
    rw [Nat.max_eq_left (hl level e1)] at e
    cases e
    exact ⟨ht, ih⟩
  | delete _ e ih =>
    obtain ⟨ht, ih⟩ := ih
    obtain ⟨s', q, e', h', -⟩ := askDelete_ok ih _
    rw [e] at e'
    cases e'
    exact ⟨ht, h'⟩
  | reset _ e ih =>
    obtain ⟨ht, ih⟩ := ih
    obtain ⟨s', e', h', -⟩ := reset_ok ih
    rw [e] at e'
    cases e'
    exact ⟨ht, h'⟩

/-- **C111**, histories: whatever the callbacks answered, call by call, every level is a part of the one below, in the same order, and the nodes are
those allocated. -/
theorem history_any_answers {s : Skip κ} (h : Reached s) : Linked s := by
  obtain ⟨ht, hi⟩ := h.shape
  refine ⟨fun k => ?_, fun k hk => ?_, hi.nd, hi.live⟩
  · rw [hi.lv, hi.lv k, F_F]
    exact List.filter_sublist
  · rw [hi.lv]
    exact F_top fun x hx => by have := (hi.pos x hx).2; have := hi.cur; omega

/-- **C111**, searching: whatever the callback answers, the search is well defined and asks about nodes of the list, each at most once. It returns a node
exactly if an answer was 0: it stops there, and returns the node of that answer. -/
theorem find_any_answers {s : Skip κ} (h : Reached s) (f : Nat → κ → Int) :
    ∃ r q, askFind s f = some (r, q) ∧ Once q s ∧ (r = none → ∀ p ∈ q, p.2 ≠ 0) ∧
      ∀ n, r = some n → q.getLast? = some (n, 0) ∧ (∀ p ∈ q.dropLast, p.2 ≠ 0) ∧ n ∈ s.lv 0 := by
  obtain ⟨ht, hi⟩ := h.shape
  obtain ⟨r, q, e, hq, h1, h2⟩ := askNodeFind_ok hi f
  refine ⟨r.map (·.1), q, by unfold askFind; rw [e]; rfl, hq, fun hr => h1 (by simpa using hr), fun n hn => ?_⟩
  obtain ⟨⟨w, l⟩, hr, rfl⟩ := Option.map_eq_some_iff.1 hn
  obtain ⟨a, b, c, -⟩ := h2 w l hr
  exact ⟨a, b, c⟩

/-- **C111**, inserting: whatever the comparison answers, the insertion succeeds, asks about old nodes only, each at most once, and puts the new node somewhere
between them. -/
theorem insert_any_answers {s : Skip κ} (h : Reached s) (key : κ) (f : Nat → κ → Int) (rand : Nat → Nat) {n : Nat} (hn : n ∉ s.live) :
    ∃ s' A B q, askInsert s key f rand (some n) = some (s', 0, q) ∧ Once q s ∧ s.lv 0 = A ++ B ∧ s'.lv 0 = A ++ n :: B ∧ s'.key = upd s.key n key ∧ s'.live = n :: s.live := by
  obtain ⟨ht, hi⟩ := h.shape
  obtain ⟨s', ht', A, B, q, e, -, r⟩ := askInsert_ok hi key f rand hn
  exact ⟨s', A, B, q, e, r⟩

/-- **C111**, deleting: whatever the callback answers, the deletion is well defined and asks about nodes of the list, each at most once. Without an answer 0
nothing changes; otherwise the node of that answer is taken off every level and given back. -/
theorem delete_any_answers {s : Skip κ} (h : Reached s) (f : Nat → κ → Int) :
    ∃ s' q, askDelete s f = some (s', q) ∧ Once q s ∧
      ((s' = s ∧ ∀ p ∈ q, p.2 ≠ 0) ∨ ∃ n ∈ s.lv 0, q.getLast? = some (n, 0) ∧ (∀ k, n ∉ s'.lv k) ∧ s'.lv 0 = (s.lv 0).erase n ∧ s'.live = s.live.erase n ∧ s'.key = s.key) := by
  obtain ⟨ht, hi⟩ := h.shape
  obtain ⟨s', q, e, h', hq, hk, hr⟩ := askDelete_ok hi f
  refine ⟨s', q, e, hq, ?_⟩
  rcases hr with hr | ⟨n, h1, h2, h3, h4⟩
  · exact Or.inl hr
  · refine Or.inr ⟨n, h1, h2, fun k hh => ?_, h3, h4, hk⟩
    rw [h'.lv] at hh
    have := (F_mem.1 hh).1
    rw [h3] at this
    exact ((hi.nd.mem_erase_iff).1 this).1 rfl

/-! ### A concrete case: answers that contradict each other -/

def fickle (k : Nat) (_ : Int) : Int := if k % 3 = 1 then 1 else if k % 3 = 2 then 0 else -1

def anyDemo : Option (Skip Int × List Asked) := do
  let s ← create 4 (fun _ => 0)
  let (s, _, q1) ← askInsert s 5 fickle (draw 0) (some 100)
  let (s, _, q2) ← askInsert s 3 fickle (draw 2) (some 200)
  let (s, _, q3) ← askInsert s 9 fickle (draw 1) (some 300)
  let (s, _, q4) ← askInsert s 5 fickle (draw 0) (some 400)
  let (s, q5) ← askDelete s fickle
  return (s, [q1, q2, q3, q4, q5])

example : anyDemo.map (·.2) = some [[], [(100, -1)], [(200, -1)], [(200, -1), (300, 1)], [(200, -1), (300, 1), (400, 0)]] := by decide +kernel
example : (anyDemo.map fun r => (r.1.lv 0, r.1.lv 1, r.1.lv 2, r.1.live)) = some ([100, 200, 300], [200, 300], [200], [300, 200, 100]) := by decide +kernel

end Bfdev.Skiplist

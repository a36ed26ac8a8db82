import Verif.Btree.Props
/-!
C100: the iteration macros of the B-tree, `include/bfdev/btree.h:123-261`, plain and safe against removal.
-/
namespace Bfdev.Btree

/-- Where an iteration starts: the plain macros, the `_from` macros at a cursor, the `_continue` macros after one. -/
inductive Start where
  | all
  | from (k v : Nat)
  | after (k : Nat)

/-- `value = bfdev_btree_next(root, key)`, or `_prev` in the `_reverse` macros: key and value afterwards. The key stays if there is no further element; the value is
then `NULL`. -/
def cursor (back : Bool) (r : Root) (k : Nat) : Option (Root × Nat × Nat) :=
  (if back then prev r k else next r k).map fun s => (s.1, s.2.getD (k, 0))

/-- `value = bfdev_btree_first(root, key)`, or `_last`. A key that was not stored is given as 0; it is not looked at. -/
def begin_ (back : Bool) (r : Root) : Option (Nat × Nat) := (if back then last r else first r).map fun x => x.getD (0, 0)

/-- `for (; value; value = step(root, key))`, btree.h:124-125, 134-135, 144, 153, 162-163, 172-173: the elements visited. -/
def iterLoop (back : Bool) : Nat → Root → Nat → Nat → Option (Root × List (Nat × Nat))
  | 0, _, _, _ => none
  | fuel + 1, r, k, v =>
    if v = 0 then some (r, [])
    else (cursor back r k).bind fun (r, k', v') => (iterLoop back fuel r k' v').map fun t => (t.1, (k, v) :: t.2)

/-- `bfdev_btree_for_each`, `_reverse`, `_from`, `_reverse_from`, `_continue`, `_reverse_continue`, btree.h:123-173. -/
def iter (back : Bool) (fuel : Nat) (r : Root) : Start → Option (Root × List (Nat × Nat))
  | .all => (begin_ back r).bind fun (k, v) => iterLoop back fuel r k v
  | .from k v => iterLoop back fuel r k v
  | .after k => (cursor back r k).bind fun (r, k, v) => iterLoop back fuel r k v

/-- `for (; value; key_copy(key, tkey), value = tval, tval = step(root, tkey))`, btree.h:186-188 and the like, with a body that removes the elements whose keys are chosen
by `kill`. -/
def safeLoop (back : Bool) (ops : Ops) (kill : Nat → Bool) : Nat → Root → Nat → Nat → Nat → Nat → Option (Root × List (Nat × Nat))
  | 0, _, _, _, _, _ => none
  | fuel + 1, r, k, v, tk, tv =>
    if v = 0 then some (r, [])
    else
      (if kill k then (remove ops r k).map fun s => s.1 else some r).bind fun r =>
      (cursor back r tk).bind fun (r, tk', tv') => (safeLoop back ops kill fuel r tk tv tk' tv').map fun t => (t.1, (k, v) :: t.2)

/-- `bfdev_btree_for_each_safe`, `_reverse_safe`, `_from_safe`, `_reverse_from_safe`, `_continue_safe`, `_reverse_continue_safe`, btree.h:183-261. (The `_from_safe` forms
name `btree_key_copy`, which does not exist, so that they do not compile; modelled is what they say with `bfdev_btree_key_copy`.) -/
def iterSafe (back : Bool) (ops : Ops) (kill : Nat → Bool) (fuel : Nat) (r : Root) : Start → Option (Root × List (Nat × Nat))
  | .all => (begin_ back r).bind fun (k, v) =>
    if v = 0 then some (r, []) else (cursor back r k).bind fun (r, tk, tv) => safeLoop back ops kill fuel r k v tk tv
  | .from k v => (cursor back r k).bind fun (r, tk, tv) => safeLoop back ops kill fuel r k v tk tv
  | .after k => (cursor back r k).bind fun (r, k, v) =>
    if v = 0 then some (r, []) else (cursor back r k).bind fun (r, tk, tv) => safeLoop back ops kill fuel r k v tk tv

/-! ### Specification -/

/-- What is to be visited, given all elements from the largest key down. -/
def wanted (back : Bool) (l : List (Nat × Nat)) : Start → List (Nat × Nat)
  | .all => if back then l.reverse else l
  | .from k _ => if back then (l.filter fun e => decide (k ≤ e.1)).reverse else l.filter fun e => decide (e.1 ≤ k)
  | .after k => if back then (l.filter fun e => decide (k < e.1)).reverse else l.filter fun e => decide (e.1 < k)

/-- The starts the macros are right for: forward a cursor that is in the tree; backward neither from key 0 nor over a tree that was emptied. -/
def Begins (back : Bool) (r : Root) (M : Map) : Start → Prop
  | .all => back = true → M 0 = none ∧ ((∃ k, M k ≠ none) ∨ r.height = 0)
  | .from k v => M k = some v ∧ (back = true → k ≠ 0)
  | .after k => if back then k < 2 ^ 64 ∧ k ≠ 0 else M k ≠ none

/-- The map without the chosen ones of the elements visited. -/
def without (M : Map) (kill : Nat → Bool) (l : List (Nat × Nat)) : Map := fun k => if kill k = true ∧ k ∈ l.map Prod.fst then none else M k

/-! ### Proofs -/

variable {K H : Nat} {mem : Nat → Bool} {ops : Ops}

/-- A list in visiting order, put in the order of the tree. -/
def ori (back : Bool) (l : List (Nat × Nat)) : List (Nat × Nat) := if back then l.reverse else l

theorem mem_ori {back : Bool} {l : List (Nat × Nat)} {e : Nat × Nat} : e ∈ ori back l ↔ e ∈ l := by
  unfold ori; split <;> simp

/-- The order of visits. -/
def before (back : Bool) (x y : Nat × Nat) : Prop := if back then x.1 < y.1 else y.1 < x.1

theorem ori_order {back : Bool} {l : List (Nat × Nat)} (h : Desc (ori back l)) : l.Pairwise (before back) := by
  cases back with
  | false => exact h
  | true => exact List.pairwise_reverse.mp h

/-- A tree with its elements in visiting order. -/
structure At (H K : Nat) (mem : Nat → Bool) (ops : Ops) (back : Bool) (r : Root) (M : Map) (l : List (Nat × Nat)) : Prop where
  run : Run K mem ops r M
  inv : Inv H K (2 ^ 64) r (ori back l)
  rel : Rel (ori back l) M

theorem At.has {back : Bool} {r : Root} {M : Map} {l : List (Nat × Nat)} (h : At H K mem ops back r M l) (k v : Nat) : M k = some v ↔ (k, v) ∈ l := by
  rw [h.rel k v, mem_ori]

theorem split_eq {k : Nat} {a b a' b' : List (Nat × Nat)} (h : a ++ b = a' ++ b') (ha : ∀ x ∈ a, k < x.1) (hb : ∀ x ∈ b, x.1 ≤ k) (ha' : ∀ x ∈ a', k < x.1)
    (hb' : ∀ x ∈ b', x.1 ≤ k) : a = a' := by
  have key : ∀ (a b : List (Nat × Nat)), (∀ x ∈ a, k < x.1) → (∀ x ∈ b, x.1 ≤ k) → (a ++ b).filter (fun x => decide (k < x.1)) = a := by
    intro a b ha hb
    rw [List.filter_append, List.filter_eq_self.mpr (fun x hx => by simpa using ha x hx), List.filter_eq_nil_iff.mpr (fun x hx => by simpa using hb x hx), List.append_nil]
  rw [← key a b ha hb, h, key a' b' ha' hb']

/-- A step from an element. -/
theorem cursor_ok {back : Bool} {r : Root} {M : Map} {done todo : List (Nat × Nat)} {k v : Nat} (h : At H K mem ops back r M (done ++ (k, v) :: todo))
    (hk0 : back = true → k ≠ 0) : ∃ r', cursor back r k = some (r', todo.head?.getD (k, 0)) ∧ At H K mem ops back r' M (done ++ (k, v) :: todo) := by
  have hkW : k < 2 ^ 64 := (h.inv.desc.2 (k, v) (mem_ori.mpr (by simp))).1
  cases back with
  | false =>
    have e : next r k = some (r, todo.head?) := next_present h.inv
    exact ⟨r, by simp [cursor, e], h⟩
  | true =>
    obtain ⟨r', a, b, g1, g2, _, g3, g4, g5⟩ := prev_ok h.inv hkW (hk0 rfl)
    have hm : ori true (done ++ (k, v) :: todo) = todo.reverse ++ (k, v) :: done.reverse := by simp [ori]
    have hd := h.inv.desc.1
    rw [hm] at g3 hd
    have ea : a = todo.reverse := by
      refine split_eq (k := k) g3.symm g4 g5 (fun x hx => ?_) (fun x hx => ?_)
      · have := hd.cross x hx (k, v) (by simp); exact this
      · rcases List.mem_cons.mp hx with rfl | hx
        · exact Nat.le_refl _
        · exact Nat.le_of_lt ((List.pairwise_cons.mp hd.right).1 x hx)
    subst ea
    refine ⟨r', by simp [cursor, g1], Run.prev h.run hkW g1, g2, h.rel⟩

/-- A step that finds nothing, from a key that may be gone. -/
theorem cursor_none {back : Bool} {r : Root} {M : Map} {l : List (Nat × Nat)} {k : Nat} (h : At H K mem ops back r M l) (hk : k < 2 ^ 64)
    (hb : ∀ e ∈ l, if back then e.1 ≤ k else k ≤ e.1) : ∃ r', cursor back r k = some (r', k, 0) ∧ At H K mem ops back r' M l := by
  cases back with
  | false =>
    obtain ⟨r', x, g1, g2, _, g3⟩ := next_any h.inv hk
    have hx : x = none := by
      cases x with
      | none => rfl
      | some e =>
        obtain ⟨h1, h2⟩ := g3 e rfl
        have := hb e (mem_ori.mp h1)
        simp only [Bool.false_eq_true, if_false] at this
        omega
    subst hx
    exact ⟨r', by simp [cursor, g1], Run.next h.run hk g1, g2, h.rel⟩
  | true =>
    by_cases hk0 : k = 0
    · subst hk0
      have e : prev r 0 = some (r, none) := by
        unfold prev
        split
        · rfl
        · rw [if_pos rfl]
      exact ⟨r, by simp [cursor, e], h⟩
    · obtain ⟨r', a, b, g1, g2, _, g3, g4, g5⟩ := prev_ok h.inv hk hk0
      have ha : a = [] := by
        cases a with
        | nil => rfl
        | cons x a =>
          have h1 := g4 x (by simp)
          have h2 := hb x ((mem_ori (back := true)).mp (by rw [g3]; simp))
          simp only [if_true] at h2
          omega
      subst ha
      exact ⟨r', by simp [cursor, g1], Run.prev h.run hk g1, g2, h.rel⟩

theorem iterLoop_ok {back : Bool} : ∀ (todo done : List (Nat × Nat)) (r : Root) (M : Map) (k v fuel : Nat), At H K mem ops back r M (done ++ (k, v) :: todo) →
    (back = true → k ≠ 0) → todo.length + 2 ≤ fuel →
    ∃ r', iterLoop back fuel r k v = some (r', (k, v) :: todo) ∧ At H K mem ops back r' M (done ++ (k, v) :: todo)
  | todo, done, r, M, k, v, fuel, h, hk0, hf => by
    obtain ⟨fuel, rfl⟩ : ∃ f, fuel = f + 1 := ⟨fuel - 1, by omega⟩
    have hv : v ≠ 0 := (h.inv.desc.2 (k, v) (mem_ori.mpr (by simp))).2
    obtain ⟨r', e, h'⟩ := cursor_ok h hk0
    rw [iterLoop, if_neg hv, e, Option.bind_some]
    cases todo with
    | nil =>
      obtain ⟨fuel, rfl⟩ : ∃ f, fuel = f + 1 := ⟨fuel - 1, by simp at hf; omega⟩
      exact ⟨r', by simp [iterLoop], h'⟩
    | cons x todo =>
      obtain ⟨k', v'⟩ := x
      have ho := ori_order h.inv.desc.1
      have hk' : back = true → k' ≠ 0 := by
        rintro rfl
        have := (List.pairwise_cons.mp (List.pairwise_append.mp ho).2.1).1 (k', v') (by simp)
        have := hk0 rfl
        simp only [before, if_true] at *
        omega
      obtain ⟨r2, e2, h2⟩ := iterLoop_ok todo (done ++ [(k, v)]) r' M k' v' fuel (by simpa using h') hk' (by simp at hf; omega)
      refine ⟨r2, ?_, by simpa using h2⟩
      simp [e2]

theorem body_ok {back : Bool} (hKH : K = 2 * H) (hH : 2 ≤ H) {r : Root} {M : Map} {done todo : List (Nat × Nat)} {k v : Nat} {kill : Nat → Bool}
    (h : At H K mem ops back r M (done ++ (k, v) :: todo)) (hr : kill k = true → ¬ Keeps ops v) :
    ∃ r', (if kill k then (remove ops r k).map fun s => s.1 else some r) = some r' ∧
      At H K mem ops back r' (if kill k then M.set k none else M) ((done ++ if kill k then [] else [(k, v)]) ++ todo) := by
  by_cases hk : kill k = true
  · simp only [if_pos hk, List.append_nil]
    have hd := h.inv.desc
    have hkW : k < 2 ^ 64 := (hd.2 (k, v) (mem_ori.mpr (by simp))).1
    have hM : M k = some v := (h.has k v).mpr (by simp)
    rcases remove_present (ops := ops) hKH hH h.inv (k := k) (v := v) (mem_ori.mpr (by simp)) with ⟨f, g1, g2, _⟩ | ⟨_, r', a, b, g1, g2, g3, _⟩
    · exact absurd ⟨f, g1, g2⟩ (hr hk)
    · have hab : a ++ b = ori back (done ++ todo) := by
        cases back with
        | false =>
          have := desc_unique (a := done) (b := todo) hd.1 g2
          simp [ori, ← this.1, ← this.2]
        | true =>
          have hm : ori true (done ++ (k, v) :: todo) = todo.reverse ++ (k, v) :: done.reverse := by simp [ori]
          rw [hm] at g2 hd
          have := desc_unique (a := todo.reverse) (b := done.reverse) hd.1 g2
          simp [ori, ← this.1, ← this.2]
      have hrel : Rel (a ++ b) (M.set k none) := Rel.remove (v := v) (by rw [← g2]; exact h.rel) (by rw [← g2]; exact hd.1)
      refine ⟨r', by rw [g1]; rfl, ?_, hab ▸ g3, hab ▸ hrel⟩
      refine Run.removed h.run hkW (Or.inl (by rw [hM]; simp)) (fun w hw => ?_) g1
      rw [hM] at hw
      cases hw
      exact hr hk
  · simp only [if_neg hk]
    exact ⟨r, rfl, by simpa using h⟩

theorem safeLoop_ok {back : Bool} (hKH : K = 2 * H) (hH : 2 ≤ H) {kill : Nat → Bool} : ∀ (todo done : List (Nat × Nat)) (r : Root) (M : Map) (k v tk tv fuel : Nat),
    At H K mem ops back r M (done ++ (k, v) :: todo) → (back = true → k ≠ 0) → todo.length + 2 ≤ fuel → (tk, tv) = todo.head?.getD (k, 0) →
    (∀ e ∈ (k, v) :: todo, kill e.1 = true → ¬ Keeps ops e.2) →
    ∃ r', safeLoop back ops kill fuel r k v tk tv = some (r', (k, v) :: todo) ∧ Run K mem ops r' (without M kill ((k, v) :: todo))
  | todo, done, r, M, k, v, tk, tv, fuel, h, hk0, hf, ht, hr => by
    obtain ⟨fuel, rfl⟩ : ∃ f, fuel = f + 1 := ⟨fuel - 1, by omega⟩
    have hkv := h.inv.desc.2 (k, v) (mem_ori.mpr (by simp))
    have ho := ori_order h.inv.desc.1
    obtain ⟨r1, e1, h1⟩ := body_ok (kill := kill) hKH hH h (hr (k, v) (by simp))
    rw [safeLoop, if_neg hkv.2, e1, Option.bind_some]
    cases todo with
    | nil =>
      obtain ⟨rfl, rfl⟩ : tk = k ∧ tv = 0 := by simpa using ht
      obtain ⟨r2, e2, h2⟩ := cursor_none h1 hkv.1 (by
        intro e he
        have he' : e ∈ done ∨ e = (tk, v) := by
          simp only [List.append_nil, List.mem_append] at he
          rcases he with he | he
          · exact Or.inl he
          · split at he
            · simp at he
            · exact Or.inr (by simpa using he)
        rcases he' with he' | rfl
        · have := (List.pairwise_append.mp ho).2.2 e he' (tk, v) (by simp)
          cases back <;> simp only [before, Bool.false_eq_true, if_true, if_false] at this ⊢ <;> omega
        · cases back <;> simp)
      rw [e2, Option.bind_some]
      obtain ⟨fuel, rfl⟩ : ∃ f, fuel = f + 1 := ⟨fuel - 1, by simp at hf; omega⟩
      refine ⟨r2, by simp [safeLoop], ?_⟩
      have : without M kill [(tk, v)] = if kill tk then M.set tk none else M := by
        funext j
        unfold without
        by_cases hj : j = tk
        · subst hj
          by_cases hkj : kill j = true <;> simp [hkj, Map.set]
        · by_cases hkj : kill tk = true <;> simp [hkj, Map.set, hj]
      rw [this]
      exact h2.run
    | cons e todo =>
      obtain ⟨k', v'⟩ := e
      obtain ⟨rfl, rfl⟩ : tk = k' ∧ tv = v' := by simpa using ht
      have hk' : back = true → tk ≠ 0 := by
        rintro rfl
        have := (List.pairwise_cons.mp (List.pairwise_append.mp ho).2.1).1 (tk, tv) (by simp)
        have := hk0 rfl
        simp only [before, if_true] at *
        omega
      obtain ⟨r2, e2, h2⟩ := cursor_ok h1 hk'
      rw [e2, Option.bind_some]
      obtain ⟨r3, e3, h3⟩ := safeLoop_ok hKH hH todo _ r2 _ tk tv (todo.head?.getD (tk, 0)).1 (todo.head?.getD (tk, 0)).2 fuel h2 hk' (by simp at hf; omega) rfl
        (fun x hx => hr x (by simp at hx ⊢; right; exact hx))
      refine ⟨r3, by simp [e3], ?_⟩
      have : without M kill ((k, v) :: (tk, tv) :: todo) = without (if kill k then M.set k none else M) kill ((tk, tv) :: todo) := by
        funext j
        unfold without
        by_cases hj : j = k
        · subst hj
          by_cases hkj : kill j = true <;> simp [hkj, Map.set]
        · have hm : j ∈ ((k, v) :: (tk, tv) :: todo).map Prod.fst ↔ j ∈ ((tk, tv) :: todo).map Prod.fst := by simp [hj]
          by_cases hkj : kill k = true <;> simp only [hkj, Map.set, hj, hm, if_true, if_false, Bool.false_eq_true]
      rw [this]
      exact h3

/-- The state at the beginning. -/
theorem at_start (hKH : K = 2 * H) (hH : 2 ≤ H) {r : Root} {M : Map} (h : Run K mem ops r M) (back : Bool) :
    ∃ l, IsListing M l ∧ At H K mem ops back r M (ori back l) ∧ Inv H K (2 ^ 64) r l := by
  obtain ⟨m, h1, h2⟩ := h.inv hKH hH
  have : ori back (ori back m) = m := by cases back <;> simp [ori]
  exact ⟨m, ⟨h1.desc.1, h2⟩, ⟨h, by rw [this]; exact h1, by rw [this]; exact h2⟩, h1⟩

theorem desc_filter {l : List (Nat × Nat)} (h : Desc l) {a b : List (Nat × Nat)} {k v : Nat} (e : l = a ++ (k, v) :: b) :
    l.filter (fun e => decide (k ≤ e.1)) = a ++ [(k, v)] ∧ l.filter (fun e => decide (e.1 ≤ k)) = (k, v) :: b ∧
    l.filter (fun e => decide (k < e.1)) = a ∧ l.filter (fun e => decide (e.1 < k)) = b := by
  subst e
  have ha : ∀ x ∈ a, k < x.1 := fun x hx => h.cross x hx (k, v) (by simp)
  have hb : ∀ x ∈ b, x.1 < k := fun x hx => (List.pairwise_cons.mp h.right).1 x hx
  have all : ∀ (p : Nat × Nat → Bool) (c : List (Nat × Nat)), (∀ x ∈ c, p x = true) → c.filter p = c := fun p c h => List.filter_eq_self.mpr h
  have non : ∀ (p : Nat × Nat → Bool) (c : List (Nat × Nat)), (∀ x ∈ c, p x = false) → c.filter p = [] :=
    fun p c h => List.filter_eq_nil_iff.mpr fun x hx => by simp [h x hx]
  refine ⟨?_, ?_, ?_, ?_⟩ <;> rw [List.filter_append, List.filter_cons]
  · rw [all _ a (fun x hx => by have := ha x hx; simp; omega), non _ b (fun x hx => by have := hb x hx; simp; omega)]; simp
  · rw [non _ a (fun x hx => by have := ha x hx; simp; omega), all _ b (fun x hx => by have := hb x hx; simp; omega)]; simp
  · rw [all _ a (fun x hx => by have := ha x hx; simp; omega), non _ b (fun x hx => by have := hb x hx; simp; omega)]; simp
  · rw [non _ a (fun x hx => by have := ha x hx; simp; omega), all _ b (fun x hx => by have := hb x hx; simp; omega)]; simp

/-- How every start comes to its first element: nothing to visit, or a cursor on the first of the elements wanted. -/
theorem entering (hKH : K = 2 * H) (hH : 2 ≤ H) {back : Bool} {r : Root} {M : Map} {start : Start} (h : Run K mem ops r M) (hb : Begins back r M start) :
    ∃ l, IsListing M l ∧ ∃ done, At H K mem ops back r M (done ++ wanted back l start) ∧
      (match start with
        | .all => done = [] ∧ ∃ x, begin_ back r = some x ∧ ((wanted back l .all = [] ∧ x.2 = 0) ∨ ∃ t, wanted back l .all = x :: t ∧ (back = true → x.1 ≠ 0))
        | .from k v => ∃ t, wanted back l (.from k v) = (k, v) :: t ∧ (back = true → k ≠ 0)
        | .after k => ∃ r' x, cursor back r k = some (r', x) ∧ At H K mem ops back r' M (done ++ wanted back l (.after k)) ∧
            ((wanted back l (.after k) = [] ∧ x.2 = 0) ∨ ∃ t, wanted back l (.after k) = x :: t ∧ (back = true → x.1 ≠ 0))) := by
  obtain ⟨l, hl, hat, hi⟩ := at_start hKH hH h back
  have hd := hl.1
  refine ⟨l, hl, ?_⟩
  cases start with
  | all =>
    refine ⟨[], by simpa [wanted, ori] using hat, rfl, ?_⟩
    cases back with
    | false =>
      rcases first_ok (by omega) hi with ⟨rfl, g | g⟩ | ⟨e, m', rfl, g⟩
      · exact ⟨(0, 0), by simp [begin_, g], Or.inl ⟨rfl, rfl⟩⟩
      · exact ⟨(0, 0), by simp [begin_, g], Or.inl ⟨rfl, rfl⟩⟩
      · exact ⟨e, by simp [begin_, g], Or.inr ⟨m', rfl, by simp⟩⟩
    | true =>
      obtain ⟨hb0, hb1⟩ := hb rfl
      rcases last_ok hi with ⟨rfl, ⟨g1, g2⟩ | ⟨g1, g2⟩⟩ | ⟨m', e, rfl, g⟩
      · exact ⟨(0, 0), by simp [begin_, g2], Or.inl ⟨rfl, rfl⟩⟩
      · rcases hb1 with ⟨k, hk⟩ | hb1
        · obtain ⟨v, hv⟩ := Option.ne_none_iff_exists'.mp hk
          exact absurd ((hl.2 k v).mp hv) (by simp)
        · exact absurd hb1 g1
      · refine ⟨e, by simp [begin_, g], Or.inr ⟨m'.reverse, by simp [wanted], fun _ h0 => ?_⟩⟩
        have := (hl.2 e.1 e.2).mpr (by simp)
        rw [h0, hb0] at this
        cases this
  | «from» k v =>
    obtain ⟨hk, hk0⟩ := hb
    obtain ⟨a, b, e⟩ := List.append_of_mem ((hl.2 k v).mp hk)
    obtain ⟨f1, f2, -, -⟩ := desc_filter hd e
    cases back with
    | false =>
      refine ⟨a, ?_, b, by simp only [wanted, f2]; simp, hk0⟩
      simp only [wanted, f2]
      simpa [ori, e] using hat
    | true =>
      refine ⟨b.reverse, ?_, a.reverse, by simp only [wanted, f1]; simp, hk0⟩
      simp only [wanted, f1]
      simpa [ori, e] using hat
  | after k =>
    cases back with
    | false =>
      have hk : M k ≠ none := hb
      obtain ⟨v, hv⟩ := Option.ne_none_iff_exists'.mp hk
      obtain ⟨a, b, e⟩ := List.append_of_mem ((hl.2 k v).mp hv)
      obtain ⟨-, -, -, f4⟩ := desc_filter hd e
      have h1 : At H K mem ops false r M (a ++ (k, v) :: b) := by simpa [ori, e] using hat
      obtain ⟨r', g1, g2⟩ := cursor_ok h1 (by simp)
      refine ⟨a ++ [(k, v)], ?_, r', _, g1, ?_, ?_⟩
      · simp only [wanted, f4]; simpa using h1
      · simp only [wanted, f4]; simpa using g2
      · simp only [wanted, f4]
        cases b with
        | nil => exact Or.inl ⟨rfl, rfl⟩
        | cons x b => exact Or.inr ⟨b, rfl, by simp⟩
    | true =>
      obtain ⟨hk, hk0⟩ : k < 2 ^ 64 ∧ k ≠ 0 := hb
      obtain ⟨r', a, b, g1, g2, _, g3, g4, g5⟩ := prev_ok hi hk hk0
      have f3 : l.filter (fun e => decide (k < e.1)) = a := by
        rw [g3, List.filter_append, List.filter_eq_self.mpr (fun x hx => by simpa using g4 x hx), List.filter_eq_nil_iff.mpr (fun x hx => by simpa using g5 x hx),
          List.append_nil]
      have ho : ori true (b.reverse ++ a.reverse) = l := by simp [ori, g3]
      refine ⟨b.reverse, ?_, r', a.getLast?.getD (k, 0), by simp [cursor, g1], ?_, ?_⟩
      · simp only [wanted, f3, if_true]
        exact ⟨h, ho ▸ hi, ho ▸ hl.2⟩
      · simp only [wanted, f3, if_true]
        exact ⟨Run.prev h hk g1, ho ▸ g2, ho ▸ hl.2⟩
      · simp only [wanted, f3, if_true]
        rcases nil_or_snoc a with rfl | ⟨a, x, rfl⟩
        · exact Or.inl ⟨rfl, rfl⟩
        · refine Or.inr ⟨a.reverse, by simp, fun _ h0 => ?_⟩
          have := g4 x (by simp)
          simp at h0
          omega

/-- **C100**, the plain macros: from every start in either direction exactly the elements on the way are visited, each once, in order, and the tree stays as it is. What
is missing: `reverse_violated`, and the starts excluded by `Begins`. -/
theorem iteration_partial (hK : K % 2 = 0) (h4 : 4 ≤ K) {back : Bool} {r : Root} {M : Map} {start : Start} (h : Run K mem ops r M) (hb : Begins back r M start) :
    ∃ l, IsListing M l ∧ ∃ r', iter back (l.length + 2) r start = some (r', wanted back l start) ∧ Run K mem ops r' M := by
  obtain ⟨H, hKH, hH⟩ := halves hK h4
  obtain ⟨l, hl, done, h1, h2⟩ := entering hKH hH h hb
  have hlen : ∀ s, (wanted back l s).length ≤ l.length := by
    intro s
    cases s <;> cases back <;> simp [wanted, List.length_filter_le]
  refine ⟨l, hl, ?_⟩
  cases start with
  | all =>
    obtain ⟨rfl, x, e, ⟨hw, hx⟩ | ⟨t, hw, hx⟩⟩ := h2
    · rw [hw]
      exact ⟨r, by simp [iter, e, iterLoop, hx], h⟩
    · rw [hw] at h1 ⊢
      have := hlen .all
      rw [hw] at this
      obtain ⟨r', e', h'⟩ := iterLoop_ok t [] r M x.1 x.2 (l.length + 2) h1 hx (by simp at this; omega)
      exact ⟨r', by simp [iter, e, e'], h'.run⟩
  | «from» k v =>
    obtain ⟨t, hw, hx⟩ := h2
    have := hlen (.from k v)
    rw [hw] at h1 this ⊢
    obtain ⟨r', e', h'⟩ := iterLoop_ok t done r M k v (l.length + 2) h1 hx (by simp at this; omega)
    exact ⟨r', e', h'.run⟩
  | after k =>
    obtain ⟨r', x, e, h3, ⟨hw, hx⟩ | ⟨t, hw, hx⟩⟩ := h2
    · rw [hw]
      exact ⟨r', by simp [iter, e, iterLoop, hx], h3.run⟩
    · have := hlen (.after k)
      rw [hw] at h3 this ⊢
      obtain ⟨r2, e', h'⟩ := iterLoop_ok t done r' M x.1 x.2 (l.length + 2) h3 hx (by simp at this; omega)
      exact ⟨r2, by simp [iter, e, e'], h'.run⟩

/-- **C100**, the macros safe against removal: the same elements are visited whichever of them the body removes, and afterwards the tree has exactly the others. -/
theorem removal_partial (hK : K % 2 = 0) (h4 : 4 ≤ K) {back : Bool} {r : Root} {M : Map} {start : Start} {kill : Nat → Bool} (h : Run K mem ops r M)
    (hb : Begins back r M start) (hr : ∀ k v, M k = some v → kill k = true → ¬ Keeps ops v) :
    ∃ l, IsListing M l ∧ ∃ r', iterSafe back ops kill (l.length + 2) r start = some (r', wanted back l start) ∧
      Run K mem ops r' (without M kill (wanted back l start)) := by
  obtain ⟨H, hKH, hH⟩ := halves hK h4
  obtain ⟨l, hl, done, h1, h2⟩ := entering hKH hH h hb
  have hsub : ∀ s, ∀ e ∈ wanted back l s, e ∈ l := by
    intro s e he
    cases s <;> cases back <;> simp [wanted] at he <;> first | exact he | exact he.1
  have hr' : ∀ s, ∀ e ∈ wanted back l s, kill e.1 = true → ¬ Keeps ops e.2 := fun s e he => hr e.1 e.2 ((hl.2 e.1 e.2).mpr (hsub s e he))
  have hlen : ∀ s, (wanted back l s).length ≤ l.length := by
    intro s
    cases s <;> cases back <;> simp [wanted, List.length_filter_le]
  have hnil : without M kill [] = M := by funext j; simp [without]
  refine ⟨l, hl, ?_⟩
  cases start with
  | all =>
    obtain ⟨rfl, x, e, ⟨hw, hx⟩ | ⟨t, hw, hx⟩⟩ := h2
    · rw [hw, hnil]
      exact ⟨r, by simp [iterSafe, e, hx], h⟩
    · have h5 := hr' .all
      have := hlen .all
      rw [hw] at h1 h5 this ⊢
      have hv : x.2 ≠ 0 := (h1.inv.desc.2 x (mem_ori.mpr (by simp))).2
      obtain ⟨r', g1, g2⟩ := cursor_ok (k := x.1) (v := x.2) h1 hx
      obtain ⟨r2, e', h'⟩ := safeLoop_ok hKH hH (kill := kill) t [] r' M x.1 x.2 (t.head?.getD (x.1, 0)).1 (t.head?.getD (x.1, 0)).2 (l.length + 2) g2 hx
        (by simp at this; omega) rfl h5
      exact ⟨r2, by simp [iterSafe, e, hv, g1, e'], h'⟩
  | «from» k v =>
    obtain ⟨t, hw, hx⟩ := h2
    have h5 := hr' (.from k v)
    have := hlen (.from k v)
    rw [hw] at h1 h5 this ⊢
    obtain ⟨r', g1, g2⟩ := cursor_ok h1 hx
    obtain ⟨r2, e', h'⟩ := safeLoop_ok hKH hH (kill := kill) t done r' M k v (t.head?.getD (k, 0)).1 (t.head?.getD (k, 0)).2 (l.length + 2) g2 hx
      (by simp at this; omega) rfl h5
    exact ⟨r2, by simp [iterSafe, g1, e'], h'⟩
  | after k =>
    obtain ⟨r', x, e, h3, ⟨hw, hx⟩ | ⟨t, hw, hx⟩⟩ := h2
    · rw [hw, hnil]
      exact ⟨r', by simp [iterSafe, e, hx], h3.run⟩
    · have h5 := hr' (.after k)
      have := hlen (.after k)
      rw [hw] at h3 h5 this ⊢
      have hv : x.2 ≠ 0 := (h3.inv.desc.2 x (mem_ori.mpr (by simp))).2
      obtain ⟨r2, g1, g2⟩ := cursor_ok (k := x.1) (v := x.2) h3 hx
      obtain ⟨r3, e', h'⟩ := safeLoop_ok hKH hH (kill := kill) t done r2 M x.1 x.2 (t.head?.getD (x.1, 0)).1 (t.head?.getD (x.1, 0)).2 (l.length + 2) g2 hx
        (by simp at this; omega) rfl h5
      exact ⟨r3, by simp [iterSafe, e, hv, g1, e'], h'⟩

/-- Disagreement: over a tree with key 0 the backward iteration ends after that key, although there are more; over a tree that was emptied it reads outside the node. -/
theorem reverse_violated : (∃ r M r', Run 8 (fun _ => true) plain r M ∧ M 5 = some 1005 ∧ iter true 10 r .all = some (r', [(0, 1000)])) ∧
    (∃ r M, Run 8 (fun _ => true) plain r M ∧ iter true 10 r .all = none) := by
  constructor
  · obtain ⟨r, M, h, hp⟩ := exec_ex (K := 8) (inserts [0, 5]) (fun r M => decide (M 5 = some 1005) && (iter true 10 r .all).any fun (t : Root × List (Nat × Nat)) => decide (t.2 = [(0, 1000)]))
      (by decide +kernel)
    simp only [Bool.and_eq_true, decide_eq_true_eq, Option.any_eq_true] at hp
    obtain ⟨h0, ⟨r', x⟩, h1, h2⟩ := hp
    simp only at h2
    subst h2
    exact ⟨r, M, r', h, h0, h1⟩
  · obtain ⟨r, M, h, hp⟩ := exec_ex (K := 8) [.remove 5, .insert 5 1] (fun r _ => (iter true 10 r .all).isNone) (by decide +kernel)
    exact ⟨r, M, h, Option.isNone_iff_eq_none.mp hp⟩

/-- Every third key of a tree of three levels is removed during the iteration, upwards from key 7, and downwards after key 20. -/
example : ((exec 4 story).bind fun t => (iterSafe false plain (fun k => k % 3 = 0) 40 t.1 (.after 20)).bind fun u =>
    (iter false 40 u.1 (.after 20)).map fun w => (u.2.map Prod.fst, w.2.map Prod.fst)) =
    some ([19, 18, 16, 15, 14, 13, 11, 10, 8, 7, 6, 5, 4, 2, 0], [19, 16, 14, 13, 11, 10, 8, 7, 5, 4, 2]) := by decide +kernel
example : ((exec 4 (.remove 0 :: story)).bind fun t => (iterSafe true plain (fun k => k % 2 = 0) 40 t.1 (.from 20 1020)).bind fun u =>
    (iter true 40 u.1 .all).map fun w => (u.2.map Prod.fst, w.2.map Prod.fst)) =
    some ([20, 21, 22, 23, 24, 26, 27, 28, 29], [2, 4, 5, 6, 7, 8, 10, 11, 13, 14, 15, 16, 18, 19, 21, 23, 27, 29]) := by decide +kernel

end Bfdev.Btree

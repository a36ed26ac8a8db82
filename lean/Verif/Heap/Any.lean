import Verif.Heap.Props
/-!
Property C110: a heap whose comparison callback answers anything at all, differently each time it is asked. The functions of `Verif/Heap/Model.lean` once more,
with the comparison replaced by an oracle that is told the number of the call, and with the list of the questions asked.
-/
namespace Bfdev.Heap

/-- The questions asked so far: the two nodes handed to the callback. -/
abbrev Asked := List (Addr × Addr)

/-- The answer to call number `k` of the callback about two nodes. -/
abbrev Oracle := Nat → Addr → Addr → Int

/-- `bfdev_heap_fixup`, heap.c:49-60. -/
def askFixup (f : Oracle) : Nat → Asked → State → Addr → Option (State × Asked)
  | 0, _, _, _ => none
  | fuel + 1, q, s, node =>
    let parent := s.parent node
    if parent = 0 then some (s, q)
    else if f q.length node parent ≥ 0 then some (s, q ++ [(node, parent)])
    else askFixup f fuel (q ++ [(node, parent)]) (parentSwap s parent node) node

/-- The choice of heap.c:78-89; NULL is passed to the comparison when only the right child exists. -/
def askSuccessor (f : Oracle) (q : Asked) (s : State) (node : Addr) : Option (Addr × Asked) :=
  let child1 := s.left node
  let child2 := s.right node
  if child2 = 0 then some (s.left node, q)
  else if child1 = 0 then none
  else if f q.length (s.left node) (s.right node) < 0 then some (s.left node, q ++ [(s.left node, s.right node)])
  else some (s.right node, q ++ [(s.left node, s.right node)])

/-- The loop of `bfdev_heap_erase`, heap.c:74-94. -/
def askSift (f : Oracle) : Nat → Asked → State → Addr → Option (State × Asked)
  | 0, _, _, _ => none
  | fuel + 1, q, s, node =>
    if s.left node = 0 ∧ s.right node = 0 then some (s, q)
    else (askSuccessor f q s node).bind fun r =>
      if f r.2.length node r.1 < 0 then some (s, r.2 ++ [(node, r.1)]) else askSift f fuel (r.2 ++ [(node, r.1)]) (parentSwap s node r.1) node

/-- `bfdev_heap_erase`, heap.c:62-95. -/
def askErase (f : Oracle) (fuel : Nat) (s : State) (node : Addr) : Option (State × Asked) :=
  let parent := s.parent node
  if parent ≠ 0 then
    if f 0 node parent < 0 then askFixup f fuel [(node, parent)] s node else askSift f fuel [(node, parent)] s node
  else askSift f fuel [] s node

/-- `bfdev_heap_insert` with `bfdev_heap_insert_node`, heap.h:167-190. -/
def askInsert (f : Oracle) (fuel : Nat) (s : State) (node : Addr) : Option (State × Asked) :=
  (findParent s).bind fun pl => askFixup f fuel [] (link s pl.1 pl.2 node) node

/-- `bfdev_heap_delete`, heap.h:197-214. -/
def askDelete (f : Oracle) (fuel : Nat) (s : State) (node : Addr) : Option (State × Asked) :=
  (remove s node).bind fun r =>
    (if r.2 ≠ 0 then askErase f fuel r.1 r.2 else some (r.1, [])).map fun s => (s.1.setNode node 0x520 0x500 0x510, s.2)

/-! ## Specification -/

/-- Memory holds a complete binary tree of exactly the nodes `S`; nothing is said about their order. -/
def IsTree (s : State) (S : List Addr) : Prop := ∃ g, Shape s g ∧ (nodes s g).Perm S

/-- Every question was about two nodes of `S`, neither of them NULL, nor twice the same one. -/
def Asks (q : Asked) (S : List Addr) : Prop := ∀ p ∈ q, p.1 ∈ S ∧ p.2 ∈ S ∧ p.1 ≠ p.2

/-- A heap after a history in which every call of the comparison, in every operation, was answered in any way. -/
inductive Reached : State → List Addr → Prop where
  | init (s : State) : Reached (init s) []
  | insert {s s' : State} {S : List Addr} {x : Addr} {f : Oracle} {fuel : Nat} {q : Asked} : Reached s S → x ≠ 0 → x ∉ S → S.length + 1 < 2 ^ 64 →
      askInsert f fuel s x = some (s', q) → Reached s' (x :: S)
  | delete {s s' : State} {S : List Addr} {x : Addr} {f : Oracle} {fuel : Nat} {q : Asked} : Reached s S → x ∈ S → S.length < 2 ^ 64 →
      askDelete f fuel s x = some (s', q) → Reached s' (S.erase x)

/-! ## With a comparison that does not change its mind this is the model of the heap -/

theorem askFixup_plain (cmp : Addr → Addr → Int) : ∀ (fuel : Nat) (q : Asked) (s : State) (x : Addr),
    (askFixup (fun _ => cmp) fuel q s x).map (·.1) = fixup cmp fuel s x := by
  intro fuel
  induction fuel with
  | zero => intro _ _ _; rfl
  | succ fuel ih =>
    intro q s x
    rw [askFixup, fixup]
    split
    · rfl
    · split
      · rfl
      · exact ih _ _ _

theorem askSuccessor_plain (cmp : Addr → Addr → Int) (q : Asked) (s : State) (x : Addr) :
    (askSuccessor (fun _ => cmp) q s x).map (·.1) = successor cmp s x := by
  unfold askSuccessor successor
  dsimp only
  split
  · rfl
  · split
    · rfl
    · split <;> rfl

theorem askSift_plain (cmp : Addr → Addr → Int) : ∀ (fuel : Nat) (q : Asked) (s : State) (x : Addr),
    (askSift (fun _ => cmp) fuel q s x).map (·.1) = siftDown cmp fuel s x := by
  intro fuel
  induction fuel with
  | zero => intro _ _ _; rfl
  | succ fuel ih =>
    intro q s x
    rw [askSift, siftDown, ← askSuccessor_plain cmp q]
    split
    · rfl
    · cases askSuccessor (fun _ => cmp) q s x with
      | none => rfl
      | some r =>
        simp only [Option.bind_some, Option.map_some]
        split
        · rfl
        · exact ih _ _ _

theorem askErase_plain (cmp : Addr → Addr → Int) (fuel : Nat) (s : State) (x : Addr) : (askErase (fun _ => cmp) fuel s x).map (·.1) = erase cmp fuel s x := by
  unfold askErase erase
  dsimp only
  by_cases h : s.parent x = 0
  · rw [if_neg (by simpa using h), if_neg (by simp [h])]
    exact askSift_plain _ _ _ _ _
  · rw [if_pos h]
    by_cases h' : cmp x (s.parent x) < 0
    · rw [if_pos h', if_pos ⟨h, h'⟩]; exact askFixup_plain _ _ _ _ _
    · rw [if_neg h', if_neg (fun c => h' c.2)]; exact askSift_plain _ _ _ _ _

/-- Insertion with a fixed comparison is the insertion of C16. -/
theorem askInsert_plain (cmp : Addr → Addr → Int) (fuel : Nat) (s : State) (x : Addr) : (askInsert (fun _ => cmp) fuel s x).map (·.1) = insert cmp fuel s x := by
  unfold askInsert insert
  cases findParent s with
  | none => rfl
  | some r => exact askFixup_plain _ _ _ _ _

/-- Deletion with a fixed comparison is the deletion of C16. -/
theorem askDelete_plain (cmp : Addr → Addr → Int) (fuel : Nat) (s : State) (x : Addr) : (askDelete (fun _ => cmp) fuel s x).map (·.1) = delete cmp fuel s x := by
  unfold askDelete delete
  cases remove s x with
  | none => rfl
  | some r =>
    simp only [Option.bind_some]
    split
    · rw [← askErase_plain]
      cases askErase (fun _ => cmp) fuel r.1 r.2 <;> rfl
    · rfl

/-! ## Proofs -/

/-- Two different nodes of the tree. -/
def Two (g : Nat → Addr) (p : Addr × Addr) : Prop := p.1 ≠ 0 ∧ p.2 ≠ 0 ∧ p.1 ≠ p.2 ∧ (∃ k, g k = p.1) ∧ ∃ k, g k = p.2

theorem Two.rng {g g' : Nat → Addr} (h : Rng g g') {p : Addr × Addr} : Two g' p → Two g p :=
  fun ⟨a, b, c, d, e⟩ => ⟨a, b, c, (h _).2 d, (h _).2 e⟩

theorem log2_half {i : Nat} (h : 2 ≤ i) : Nat.log2 i = Nat.log2 (i / 2) + 1 := by rw [Nat.log2_def, if_pos h]

theorem askFixup_ok (f : Oracle) : ∀ (fuel : Nat) (q : Asked) (s : State) (g : Nat → Addr) (i : Nat), Shape s g → g i ≠ 0 → Nat.log2 i < fuel →
    ∃ s' g' r, askFixup f fuel q s (g i) = some (s', q ++ r) ∧ Shape s' g' ∧ Rng g g' ∧ s'.count = s.count ∧ r.length ≤ Nat.log2 i ∧ ∀ p ∈ r, Two g p := by
  intro fuel
  induction fuel with
  | zero => intro q s g i _ _ hf; omega
  | succ fuel ih =>
    intro q s g i h hi hf
    have hin := (h.number i).1 hi
    rw [askFixup]
    rw [h.parent i hi]
    by_cases hp : g (i / 2) = 0
    · rw [if_pos hp]
      exact ⟨s, g, [], by simp, h, Rng.refl _, rfl, by simp, by simp⟩
    · rw [if_neg hp]
      have hpn := (h.number _).1 hp
      have hl := log2_half (i := i) (by omega)
      have htwo : Two g (g i, g (i / 2)) := ⟨hi, hp, fun e => by have := h.inj _ _ hi e; omega, ⟨_, rfl⟩, ⟨_, rfl⟩⟩
      split
      · exact ⟨s, g, [(g i, g (i / 2))], rfl, h, Rng.refl _, rfl, by simp; omega, by simpa using htwo⟩
      · obtain ⟨w1, w2, _⟩ := swap_shape h hi hp
        have hv : swp g i (i / 2) = g i := by rw [swp, if_pos rfl]
        obtain ⟨s', g', r, a1, a2, a3, a4, a5, a6⟩ := ih (q ++ [(g i, g (i / 2))]) _ _ (i / 2) w1 (by rw [hv]; exact hi) (by omega)
        rw [hv] at a1
        refine ⟨s', g', (g i, g (i / 2)) :: r, by rw [a1]; simp, a2, (swp_rng g i).trans a3, a4.trans w2, by simp only [List.length_cons]; omega, ?_⟩
        intro p hp'
        rcases List.mem_cons.1 hp' with rfl | hp'
        · exact htwo
        · exact (a6 p hp').rng (swp_rng g i)

theorem askSift_ok (f : Oracle) : ∀ (d fuel : Nat) (q : Asked) (s : State) (g : Nat → Addr) (i : Nat), Shape s g → g i ≠ 0 → s.count < i * 2 ^ (d + 1) → d < fuel →
    ∃ s' g' r, askSift f fuel q s (g i) = some (s', q ++ r) ∧ Shape s' g' ∧ Rng g g' ∧ s'.count = s.count ∧ r.length ≤ 2 * d ∧ ∀ p ∈ r, Two g p := by
  intro d
  induction d with
  | zero =>
    intro fuel q s g i h hi hc hf
    obtain ⟨fuel, rfl⟩ : ∃ m, fuel = m + 1 := ⟨fuel - 1, by omega⟩
    have hz : ∀ k, s.count < k → g k = 0 := fun k hk => Decidable.byContradiction fun hh => by have := (h.number k).1 hh; omega
    rw [askSift, h.left i hi, h.right i hi, if_pos ⟨hz _ (by omega), hz _ (by omega)⟩]
    exact ⟨s, g, [], by simp, h, Rng.refl _, rfl, by simp, by simp⟩
  | succ d ih =>
    intro fuel q s g i h hi hc hf
    obtain ⟨fuel, rfl⟩ : ∃ m, fuel = m + 1 := ⟨fuel - 1, by omega⟩
    have hin := (h.number i).1 hi
    rw [askSift, askSuccessor]
    rw [h.left i hi, h.right i hi]
    by_cases hl : g (2 * i) = 0
    · have hr : g (2 * i + 1) = 0 := Decidable.byContradiction fun hh => by
        have := (h.number (2 * i + 1)).1 hh
        exact (h.number (2 * i)).2 (by omega) hl
      rw [if_pos ⟨hl, hr⟩]
      exact ⟨s, g, [], by simp, h, Rng.refl _, rfl, by simp, by simp⟩
    · rw [if_neg (fun c => hl c.1)]
      -- one level down, whichever child was chosen and after at most one question
      have next : ∀ (c : Nat) (r0 : Asked), (c = 2 * i ∨ c = 2 * i + 1) → g c ≠ 0 → r0.length ≤ 1 → (∀ p ∈ r0, Two g p) →
          ∃ s' g' r, (if f (q ++ r0).length (g i) (g c) < 0 then some (s, (q ++ r0) ++ [(g i, g c)])
            else askSift f fuel ((q ++ r0) ++ [(g i, g c)]) (parentSwap s (g i) (g c)) (g i)) = some (s', q ++ r) ∧
            Shape s' g' ∧ Rng g g' ∧ s'.count = s.count ∧ r.length ≤ 2 * (d + 1) ∧ ∀ p ∈ r, Two g p := by
        intro c r0 hci hc0 hr0 hr1
        have hcd : c / 2 = i := by omega
        have htwo : Two g (g i, g c) := ⟨hi, hc0, fun e => by have := h.inj _ _ hi e; omega, ⟨_, rfl⟩, ⟨_, rfl⟩⟩
        split
        · refine ⟨s, g, r0 ++ [(g i, g c)], by simp, h, Rng.refl _, rfl, by simp; omega, fun p hp => ?_⟩
          rcases List.mem_append.1 hp with hp | hp
          · exact hr1 p hp
          · rw [List.mem_singleton.1 hp]; exact htwo
        · obtain ⟨w1, w2, _⟩ := swap_shape h hc0 (by rw [hcd]; exact hi)
          rw [hcd] at w1 w2
          have hv : swp g c c = g i := by rw [swp, hcd, if_neg (by omega), if_pos rfl]
          have hcount : s.count < c * 2 ^ (d + 1) := by
            have e : i * 2 ^ (d + 1 + 1) = (2 * i) * 2 ^ (d + 1) := by rw [Nat.pow_succ, Nat.mul_comm 2 i, Nat.mul_assoc, Nat.mul_comm 2]
            rw [e] at hc
            exact Nat.lt_of_lt_of_le hc (Nat.mul_le_mul_right _ (by omega))
          obtain ⟨s', g', r, a1, a2, a3, a4, a5, a6⟩ := ih fuel ((q ++ r0) ++ [(g i, g c)]) _ _ c w1 (by rw [hv]; exact hi) (by rw [w2]; exact hcount) (by omega)
          rw [hv] at a1
          refine ⟨s', g', r0 ++ (g i, g c) :: r, by rw [a1]; simp, a2, (swp_rng g c).trans a3, a4.trans w2, by simp only [List.length_append, List.length_cons]; omega, ?_⟩
          intro p hp
          rcases List.mem_append.1 hp with hp | hp
          · exact hr1 p hp
          · rcases List.mem_cons.1 hp with rfl | hp
            · exact htwo
            · exact (a6 p hp).rng (swp_rng g c)
      by_cases hr : g (2 * i + 1) = 0
      · rw [if_pos hr, Option.bind_some]
        have := next (2 * i) [] (Or.inl rfl) hl (by simp) (by simp)
        simpa using this
      · rw [if_neg hr, if_neg hl]
        have htwo : Two g (g (2 * i), g (2 * i + 1)) := ⟨hl, hr, fun e => by have := h.inj _ _ hl e; omega, ⟨_, rfl⟩, ⟨_, rfl⟩⟩
        split
        · exact next (2 * i) [(g (2 * i), g (2 * i + 1))] (Or.inl rfl) hl (by simp) (by simpa using htwo)
        · exact next (2 * i + 1) [(g (2 * i), g (2 * i + 1))] (Or.inr rfl) hr (by simp) (by simpa using htwo)

theorem askErase_ok (f : Oracle) {fuel : Nat} {s : State} {g : Nat → Addr} {i : Nat} (h : Shape s g) (hi : g i ≠ 0) (hf : Nat.log2 s.count < fuel) :
    ∃ s' g' r, askErase f fuel s (g i) = some (s', r) ∧ Shape s' g' ∧ Rng g g' ∧ s'.count = s.count ∧ r.length ≤ 2 * Nat.log2 s.count ∧ ∀ p ∈ r, Two g p := by
  have hin := (h.number i).1 hi
  have hlog : s.count < 2 ^ (Nat.log2 s.count + 1) := Nat.lt_log2_self
  have hmono : ∀ {a b : Nat}, 1 ≤ a → a ≤ b → Nat.log2 a ≤ Nat.log2 b := fun {a b} h1 h2 =>
    (Nat.le_log2 (by omega)).2 (Nat.le_trans (Nat.log2_self_le (by omega)) h2)
  unfold askErase
  dsimp only
  rw [h.parent i hi]
  by_cases hp : g (i / 2) = 0
  · rw [if_neg (by simpa using hp)]
    obtain ⟨s', g', r, a1, a2, a3, a4, a5, a6⟩ := askSift_ok f (Nat.log2 s.count) fuel [] s g i h hi
      (Nat.lt_of_lt_of_le hlog (Nat.le_mul_of_pos_left _ (by omega))) hf
    exact ⟨s', g', r, by rw [a1]; simp, a2, a3, a4, a5, a6⟩
  · rw [if_pos hp]
    have hpn := (h.number _).1 hp
    have htwo : Two g (g i, g (i / 2)) := ⟨hi, hp, fun e => by have := h.inj _ _ hi e; omega, ⟨_, rfl⟩, ⟨_, rfl⟩⟩
    have hall : ∀ r : Asked, (∀ p ∈ r, Two g p) → ∀ p ∈ [(g i, g (i / 2))] ++ r, Two g p := by
      intro r hr p hp
      rcases List.mem_append.1 hp with hp | hp
      · rw [List.mem_singleton.1 hp]; exact htwo
      · exact hr p hp
    have h1 : 1 ≤ Nat.log2 s.count := (Nat.le_log2 (by omega)).2 (by omega)
    split
    · have := hmono (a := i) (b := s.count) (by omega) (by omega)
      obtain ⟨s', g', r, a1, a2, a3, a4, a5, a6⟩ := askFixup_ok f fuel [(g i, g (i / 2))] s g i h hi (by omega)
      exact ⟨s', g', _, a1, a2, a3, a4, by simp only [List.length_append, List.length_singleton]; omega, hall r a6⟩
    · obtain ⟨d, hd⟩ : ∃ d, Nat.log2 s.count = d + 1 := ⟨_, (Nat.sub_add_cancel h1).symm⟩
      rw [hd] at hlog hf ⊢
      have hlt : s.count < i * 2 ^ (d + 1) := by
        rw [Nat.pow_succ, Nat.mul_comm] at hlog
        exact Nat.lt_of_lt_of_le hlog (Nat.mul_le_mul_right _ (by omega))
      obtain ⟨s', g', r, a1, a2, a3, a4, a5, a6⟩ := askSift_ok f d fuel [(g i, g (i / 2))] s g i h hi hlt (by omega)
      exact ⟨s', g', _, a1, a2, a3, a4, by simp only [List.length_append, List.length_singleton]; omega, hall r a6⟩

theorem IsTree.nodup {s : State} {S : List Addr} (h : IsTree s S) : S.Nodup := by
  obtain ⟨g, h1, h3⟩ := h
  exact h3.nodup_iff.1 (nodup_nodes h1)

theorem IsTree.count {s : State} {S : List Addr} (h : IsTree s S) : s.count = S.length := by
  obtain ⟨g, _, h3⟩ := h
  rw [← length_nodes s g]; exact h3.length_eq

/-- **C110**, inserting a node into a heap of `n` nodes: whatever the comparison answers, call by call, the insertion ends after at most `log2 (n + 1)`
calls, each about two different nodes of the heap, and leaves a complete binary tree of the old nodes and the new one. -/
theorem insert_any_answers (f : Oracle) {fuel : Nat} {s : State} {S : List Addr} (h : IsTree s S) {n : Addr} (hn : n ≠ 0) (hnS : n ∉ S)
    (hb : S.length + 1 < 2 ^ 64) (hf : Nat.log2 (S.length + 1) < fuel) :
    ∃ s' q, askInsert f fuel s n = some (s', q) ∧ IsTree s' (n :: S) ∧ q.length ≤ Nat.log2 (S.length + 1) ∧ Asks q (n :: S) := by
  have hcnt := h.count
  have hnd := h.nodup
  obtain ⟨g, h1, h3⟩ := h
  have hfresh : ∀ k, g k ≠ n := fun k e => hnS (h3.mem_iff.1 ((mem_nodes h1 n).2 ⟨hn, k, e⟩))
  obtain ⟨w1, _⟩ := link_shape h1 (by rw [hcnt]; exact hb) hn hfresh
  have hnew : (fun k => if k = s.count + 1 then n else g k) (s.count + 1) = n := if_pos rfl
  obtain ⟨s', g', r, e1, e2, e3, _, e5, e6⟩ := askFixup_ok f fuel [] _ _ (s.count + 1) w1 (by rw [if_pos rfl]; exact hn) (by rw [hcnt]; exact hf)
  rw [if_pos rfl] at e1
  have hmem : ∀ x, (x ≠ 0 ∧ ∃ k, (fun k => if k = s.count + 1 then n else g k) k = x) ↔ x ∈ n :: S := by
    intro x
    rw [List.mem_cons, ← h3.mem_iff, mem_nodes h1]
    constructor
    · rintro ⟨hx, k, hk⟩
      dsimp only at hk
      by_cases e : k = s.count + 1
      · rw [if_pos e] at hk; exact Or.inl hk.symm
      · rw [if_neg e] at hk; exact Or.inr ⟨hx, k, hk⟩
    · rintro (rfl | ⟨hx, k, hk⟩)
      · exact ⟨hn, _, hnew⟩
      · have := (h1.number k).1 (by rw [hk]; exact hx)
        exact ⟨hx, k, by dsimp only; rw [if_neg (by omega), hk]⟩
  refine ⟨s', r, by rw [askInsert, findParent_ok h1 (by rw [hcnt]; exact hb), Option.bind_some, e1]; rfl,
    ⟨g', e2, nodes_perm e2 (List.nodup_cons.2 ⟨hnS, hnd⟩) fun x => ?_⟩, by rw [← hcnt]; exact e5, fun p hp => ?_⟩
  · rw [← e3]; exact hmem x
  · obtain ⟨a, b, c, d, e⟩ := e6 p hp
    exact ⟨(hmem _).1 ⟨a, d⟩, (hmem _).1 ⟨b, e⟩, c⟩

/-- **C110**, deleting any node of a heap of `n` nodes: whatever the comparison answers, call by call, the deletion ends after at most
`2 · log2 (n - 1)` calls, each about two different nodes that stay, and leaves a complete binary tree of the other nodes. -/
theorem delete_any_answers (f : Oracle) {fuel : Nat} {s : State} {S : List Addr} (h : IsTree s S) {n : Addr} (hnS : n ∈ S) (hb : S.length < 2 ^ 64)
    (hf : Nat.log2 (S.length - 1) < fuel) :
    ∃ s' q, askDelete f fuel s n = some (s', q) ∧ IsTree s' (S.erase n) ∧ q.length ≤ 2 * Nat.log2 (S.length - 1) ∧ Asks q (S.erase n) := by
  have hcnt := h.count
  have hnd := h.nodup
  obtain ⟨g, h1, h3⟩ := h
  obtain ⟨hn, m, rfl⟩ := (mem_nodes h1 n).1 (h3.mem_iff.2 hnS)
  obtain ⟨t, r1, r2, r3⟩ := remove_ok h1 (by rw [hcnt]; exact hb) hn
  have hmem : ∀ (g' : Nat → Addr), Rng (cutg g s.count m) g' → ∀ x, (x ≠ 0 ∧ ∃ k, g' k = x) ↔ x ∈ S.erase (g m) := by
    intro g' hr x
    rw [← hr, cutg_mem h1 hn, hnd.mem_erase_iff, ← h3.mem_iff, mem_nodes h1]
    constructor
    · rintro ⟨a, b, c⟩; exact ⟨b, a, c⟩
    · rintro ⟨a, b, c⟩; exact ⟨b, a, c⟩
  have fin : ∀ (t' : State) (g' : Nat → Addr), Shape t' g' → Rng (cutg g s.count m) g' → IsTree (t'.setNode (g m) 0x520 0x500 0x510) (S.erase (g m)) := by
    intro t' g' a c
    have hp : Shape (t'.setNode (g m) 0x520 0x500 0x510) g' := poison_shape a (fun k hk => by
      refine Decidable.byContradiction fun h0 => ?_
      have := (hmem g' c (g m)).1 ⟨h0, k, hk⟩
      exact ((hnd.mem_erase_iff).1 this).1 rfl)
    exact ⟨g', hp, nodes_perm hp (hnd.erase _) (hmem g' c)⟩
  unfold askDelete
  rw [r1, Option.bind_some]
  by_cases hm : m = s.count
  · rw [if_pos hm, if_neg (by simp)]
    exact ⟨_, [], rfl, fin t _ r2 (Rng.refl _), by simp, fun p hp => absurd hp (by simp)⟩
  · have hL : g s.count ≠ 0 := (h1.number _).2 (by have := (h1.number m).1 hn; omega)
    have hmn := (h1.number m).1 hn
    rw [if_neg hm, if_pos hL]
    have hv : cutg g s.count m m = g s.count := by unfold cutg; rw [if_neg hm, if_pos rfl]
    have ht : t.count = S.length - 1 := by omega
    obtain ⟨s', g', q, e1, e2, e3, _, e5, e6⟩ := askErase_ok f (fuel := fuel) (i := m) r2 (by rw [hv]; exact hL) (by rw [ht]; exact hf)
    rw [hv] at e1
    refine ⟨_, q, by rw [e1]; rfl, fin s' g' e2 e3, by rw [← ht]; exact e5, fun p hp => ?_⟩
    obtain ⟨a, b, c, d, e⟩ := e6 p hp
    exact ⟨(hmem _ (Rng.refl _) _).1 ⟨a, d⟩, (hmem _ (Rng.refl _) _).1 ⟨b, e⟩, c⟩

theorem askFixup_fuel (f : Oracle) : ∀ (fuel : Nat) (q : Asked) (s : State) (x : Addr) r, askFixup f fuel q s x = some r → ∀ fuel', fuel ≤ fuel' → askFixup f fuel' q s x = some r := by
  intro fuel
  induction fuel with
  | zero => intro _ _ _ _ e; cases e
  | succ fuel ih =>
    intro q s x r e fuel' hf
    obtain ⟨fuel', rfl⟩ : ∃ m, fuel' = m + 1 := ⟨fuel' - 1, by omega⟩
    rw [askFixup] at e ⊢
    split
    · rename_i h; rwa [if_pos h] at e
    · rename_i h
      rw [if_neg h] at e
      split
      · rename_i h'; rwa [if_pos h'] at e
      · rename_i h'
        rw [if_neg h'] at e
        exact ih _ _ _ _ e _ (by omega)

theorem askSift_fuel (f : Oracle) : ∀ (fuel : Nat) (q : Asked) (s : State) (x : Addr) r, askSift f fuel q s x = some r → ∀ fuel', fuel ≤ fuel' → askSift f fuel' q s x = some r := by
  intro fuel
  induction fuel with
  | zero => intro _ _ _ _ e; cases e
  | succ fuel ih =>
    intro q s x r e fuel' hf
    obtain ⟨fuel', rfl⟩ : ∃ m, fuel' = m + 1 := ⟨fuel' - 1, by omega⟩
    rw [askSift] at e ⊢
    split
    · rename_i h; rwa [if_pos h] at e
    · rename_i h
      rw [if_neg h] at e
      cases hs : askSuccessor f q s x with
      | none => rw [hs] at e; cases e
      | some y =>
        rw [hs, Option.bind_some] at e
        rw [Option.bind_some]
        split
        · rename_i h'; rwa [if_pos h'] at e
        · rename_i h'
          rw [if_neg h'] at e
          exact ih _ _ _ _ e _ (by omega)

theorem askErase_fuel (f : Oracle) {fuel : Nat} {s : State} {x : Addr} {r} (e : askErase f fuel s x = some r) {fuel' : Nat} (hf : fuel ≤ fuel') : askErase f fuel' s x = some r := by
  unfold askErase at e ⊢
  dsimp only at e ⊢
  split
  · rename_i h
    rw [if_pos h] at e
    split
    · rename_i h'; rw [if_pos h'] at e; exact askFixup_fuel _ _ _ _ _ _ e _ hf
    · rename_i h'; rw [if_neg h'] at e; exact askSift_fuel _ _ _ _ _ _ e _ hf
  · rename_i h
    rw [if_neg h] at e
    exact askSift_fuel _ _ _ _ _ _ e _ hf

theorem askInsert_fuel (f : Oracle) {fuel : Nat} {s : State} {x : Addr} {r} (e : askInsert f fuel s x = some r) {fuel' : Nat} (hf : fuel ≤ fuel') : askInsert f fuel' s x = some r := by
  unfold askInsert at e ⊢
  cases h : findParent s with
  | none => rw [h] at e; cases e
  | some pl => rw [h] at e; exact askFixup_fuel _ _ _ _ _ _ e _ hf

theorem askDelete_fuel (f : Oracle) {fuel : Nat} {s : State} {x : Addr} {r} (e : askDelete f fuel s x = some r) {fuel' : Nat} (hf : fuel ≤ fuel') : askDelete f fuel' s x = some r := by
  unfold askDelete at e ⊢
  cases h : remove s x with
  | none => rw [h] at e; cases e
  | some y =>
    rw [h, Option.bind_some] at e
    rw [Option.bind_some]
    split
    · rename_i h'
      rw [if_pos h'] at e
      cases h2 : askErase f fuel y.1 y.2 with
      | none => rw [h2] at e; cases e
      | some z => rw [h2] at e; rw [askErase_fuel f h2 hf]; exact e
    · rename_i h'; rwa [if_neg h'] at e

/-- **C110**, histories: after any insertions and deletions, whatever the comparisons answered, the nodes put in and not deleted form a complete
binary tree. -/
theorem history_any_answers {s : State} {S : List Addr} (h : Reached s S) : IsTree s S := by
  induction h with
  | init s => exact ⟨_, (init_sound (fun _ _ => 0) s).choose_spec.1, (init_sound (fun _ _ => 0) s).choose_spec.2.2⟩
  | @insert s s' S x f fuel q _ hx hxS hb e ih =>
    obtain ⟨s1, q1, e1, h1, _⟩ := insert_any_answers f (fuel := max fuel (Nat.log2 (S.length + 1) + 1)) ih hx hxS hb (by omega)
    rw [askInsert_fuel f e (Nat.le_max_left _ _)] at e1
    cases e1
    exact h1
  | @delete s s' S x f fuel q _ hx hb e ih =>
    obtain ⟨s1, q1, e1, h1, _⟩ := delete_any_answers f (fuel := max fuel (Nat.log2 (S.length - 1) + 1)) ih hx hb (by omega)
    rw [askDelete_fuel f e (Nat.le_max_left _ _)] at e1
    cases e1
    exact h1

/-! ### A concrete case: five nodes, and answers that contradict each other -/

/-- Answers less and greater in turn. -/
def fickle : Oracle := fun k _ _ => if k % 2 = 0 then -1 else 1

def anyDemo : Option (State × List Asked) := do
  let (s, q1) ← askInsert fickle 5 (init zeroMem) 50
  let (s, q2) ← askInsert fickle 5 s 30
  let (s, q3) ← askInsert fickle 5 s 40
  let (s, q4) ← askInsert fickle 5 s 20
  let (s, q5) ← askInsert fickle 5 s 60
  let (s, q6) ← askDelete fickle 5 s 40
  return (s, [q1, q2, q3, q4, q5, q6])

example : anyDemo.map (·.2) = some [[], [(30, 50)], [(40, 30)], [(20, 50), (20, 40)], [(60, 20), (60, 40)], [(60, 30), (20, 60), (20, 50)]] := by decide +kernel
example : (anyDemo.bind fun r => forEach r.1 10 (first r.1)) = some [60, 20, 30, 50] := by decide +kernel

end Bfdev.Heap

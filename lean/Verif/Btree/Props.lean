import Verif.Btree.Query
import Verif.Btree.Spec
/-!
C28 and C80: the B-tree as a map and its order. The theorems range over all histories (`Run`), all even numbers of keys per node from 4 on
(the supplied layouts have 8), all allocators and all functions `clash` and `remove` of the user.
-/
namespace Bfdev.Btree

variable {K : Nat} {mem : Nat → Bool} {ops : Ops}

/-- The list of the elements stands for the map. -/
def Rel (m : List (Nat × Nat)) (M : Map) : Prop := ∀ k v, M k = some v ↔ (k, v) ∈ m

theorem Rel.none {m : List (Nat × Nat)} {M : Map} (h : Rel m M) {k : Nat} : M k = none ↔ k ∉ m.map Prod.fst := by
  constructor
  · intro h0 hin
    obtain ⟨⟨j, v⟩, h1, h2⟩ := List.mem_map.mp hin
    simp only at h2
    subst h2
    rw [(h j v).mpr h1] at h0
    cases h0
  · intro h0
    cases hm : M k with
    | none => rfl
    | some v => exact absurd (List.mem_map.mpr ⟨(k, v), (h k v).mp hm, rfl⟩) h0

theorem Rel.insert {a b : List (Nat × Nat)} {M : Map} {k v : Nat} (h : Rel (a ++ b) M) (hk : k ∉ (a ++ b).map Prod.fst) : Rel (a ++ (k, v) :: b) (M.set k (some v)) := by
  intro j w
  unfold Map.set
  by_cases e : j = k
  · subst e
    rw [if_pos rfl]
    constructor
    · intro h1; cases h1; simp
    · intro h1
      have : (j, w) ∈ a ++ b ∨ (j, w) = (j, v) := by simp at h1 ⊢; grind
      rcases this with h2 | h2
      · exact absurd (List.mem_map.mpr ⟨_, h2, rfl⟩) hk
      · cases h2; rfl
  · rw [if_neg e, h j w]
    constructor
    · intro h1; simp at h1 ⊢; grind
    · intro h1
      have : (j, w) ≠ (k, v) := by intro e2; cases e2; exact e rfl
      simp at h1 ⊢; grind

theorem Rel.remove {a b : List (Nat × Nat)} {M : Map} {k v : Nat} (h : Rel (a ++ (k, v) :: b) M) (hd : Desc (a ++ (k, v) :: b)) : Rel (a ++ b) (M.set k Option.none) := by
  intro j w
  unfold Map.set
  have hk : k ∉ (a ++ b).map Prod.fst := by
    intro hin
    obtain ⟨⟨j, x⟩, h1, h2⟩ := List.mem_map.mp hin
    simp only at h2
    subst h2
    rcases List.mem_append.mp h1 with h1 | h1
    · have := hd.cross _ h1 (j, v) (by simp); simp at this
    · have := (List.pairwise_cons.mp hd.right).1 _ h1; simp at this
  by_cases e : j = k
  · subst e
    rw [if_pos rfl]
    constructor
    · intro h1; cases h1
    · intro h1; exact absurd (List.mem_map.mpr ⟨_, h1, rfl⟩) hk
  · rw [if_neg e, h j w]
    constructor
    · intro h1
      have : (j, w) ≠ (k, v) := by intro e2; cases e2; exact e rfl
      simp at h1 ⊢; grind
    · intro h1; simp at h1 ⊢; grind

theorem Rel.erase {m : List (Nat × Nat)} {M : Map} {k : Nat} (h : Rel m M) (hk : M k = Option.none) : Rel m (M.set k Option.none) := by
  have : M.set k Option.none = M := by
    funext j
    unfold Map.set
    split
    · next e => rw [e, hk]
    · rfl
  rw [this]; exact h

theorem Rel.update {a b : List (Nat × Nat)} {M : Map} {k old v : Nat} (h : Rel (a ++ (k, old) :: b) M) (hd : Desc (a ++ (k, old) :: b)) :
    Rel (a ++ (k, v) :: b) (M.set k (some v)) := by
  have h1 := h.remove hd
  have hk : k ∉ (a ++ b).map Prod.fst := (h1.none).mp (by unfold Map.set; rw [if_pos rfl])
  have := h1.insert (v := v) hk
  have e : (M.set k Option.none).set k (some v) = M.set k (some v) := by
    funext j; unfold Map.set; split <;> simp_all
  rwa [e] at this

theorem releaseLoop_mono : ∀ {n n' : Nat} {r : Root} {k v tk tv : Nat} {out : List Nat} {t : Root × List Nat}, n ≤ n' → releaseLoop ops n r k v tk tv out = some t →
    releaseLoop ops n' r k v tk tv out = some t
  | 0, _, _, _, _, _, _, _, _, _, h => by simp [releaseLoop] at h
  | n + 1, n', r, k, v, tk, tv, out, t, hn, h => by
    obtain ⟨n', rfl⟩ : ∃ m, n' = m + 1 := ⟨n' - 1, by omega⟩
    rw [releaseLoop] at h ⊢
    split at h
    · next hv => rw [if_pos hv]; exact h
    · next hv =>
      rw [if_neg hv]
      cases h1 : Btree.remove ops r k with
      | none => rw [h1] at h; simp at h
      | some s =>
        rw [h1, Option.bind_some] at h
        rw [Option.bind_some]
        cases h2 : nextCursor s.1 tk with
        | none => rw [h2] at h; simp at h
        | some u =>
          rw [h2, Option.bind_some] at h
          rw [Option.bind_some]
          exact releaseLoop_mono (by omega) h

theorem release_mono {n n' : Nat} {r : Root} {t : Root × List Nat} (hn : n ≤ n') (h : release ops n r = some t) : release ops n' r = some t := by
  unfold release at h ⊢
  cases h1 : first r with
  | none => rw [h1] at h; simp at h
  | some x =>
    rw [h1, Option.bind_some] at h
    rw [Option.bind_some]
    cases x with
    | none => exact h
    | some e =>
      dsimp only at h ⊢
      split at h
      · next hv => rw [if_pos hv]; exact h
      · next hv =>
        rw [if_neg hv]
        cases h2 : nextCursor r e.1 with
        | none => rw [h2] at h; simp at h
        | some u =>
          rw [h2, Option.bind_some] at h
          rw [Option.bind_some]
          cases h3 : releaseLoop ops n u.1 e.1 e.2 u.2.1 u.2.2 [] with
          | none => rw [h3] at h; simp at h
          | some w =>
            rw [h3] at h
            rw [releaseLoop_mono hn h3]
            exact h

/-- Every tree of a history is in order and stands for the map of the history. -/
theorem Run.inv {H : Nat} (hKH : K = 2 * H) (hH : 2 ≤ H) {r : Root} {M : Map} (h : Run K mem ops r M) : ∃ m, Inv H K (2 ^ 64) r m ∧ Rel m M := by
  induction h with
  | init => exact ⟨[], inv_init, fun k v => by simp⟩
  | @inserted r M k v r' _ hk hM hi ih =>
    obtain ⟨m, h1, h2⟩ := ih
    have hv : v ≠ 0 := by
      rintro rfl
      unfold Btree.insert at hi
      rw [if_pos rfl] at hi
      simp at hi
    rcases insert_ok (mem := mem) (ops := ops) hKH hH h1 hk hv with ⟨old, g1, _⟩ | ⟨_, r'', g1, _⟩ | ⟨g0, r'', a, b, g1, rfl, g3⟩
    · rw [(h2 k old).mpr g1] at hM; cases hM
    · rw [g1] at hi; simp at hi
    · rw [g1] at hi
      simp only [Option.some.injEq, Prod.mk.injEq, and_true] at hi
      subst hi
      exact ⟨_, g3, h2.insert g0⟩
  | @refused r M k v r' ret _ hk hM hi ih =>
    obtain ⟨m, h1, h2⟩ := ih
    by_cases hv : v = 0
    · subst hv
      unfold Btree.insert at hi
      rw [if_pos rfl] at hi
      simp only [Option.some.injEq, Prod.mk.injEq] at hi
      exact ⟨m, hi.1 ▸ h1, h2⟩
    · rcases insert_ok (mem := mem) (ops := ops) hKH hH h1 hk hv with ⟨old, _, r'', g1, g2⟩ | ⟨_, r'', g1, g2, _⟩ | ⟨g0, r'', a, b, g1, rfl, g3⟩
      · rw [g1] at hi
        simp only [Option.some.injEq, Prod.mk.injEq] at hi
        exact ⟨m, hi.1 ▸ g2, h2⟩
      · rw [g1] at hi
        simp only [Option.some.injEq, Prod.mk.injEq] at hi
        exact ⟨m, hi.1 ▸ g2, h2⟩
      · rw [g1] at hi
        simp only [Option.some.injEq, Prod.mk.injEq] at hi
        rcases hM with hM | hM
        · exact absurd (h2.none.mpr g0) hM
        · exact absurd hi.2.symm hM
  | @removed r M k r' x _ hk hr hkeep hi ih =>
    obtain ⟨m, h1, h2⟩ := ih
    cases hM : M k with
    | some v =>
      rcases remove_present (ops := ops) hKH hH h1 ((h2 k v).mp hM) with ⟨f, g1, g2, _⟩ | ⟨_, r'', a, b, g1, rfl, g3, _⟩
      · exact absurd ⟨f, g1, g2⟩ (hkeep v hM)
      · rw [g1] at hi
        simp only [Option.some.injEq, Prod.mk.injEq] at hi
        exact ⟨_, hi.1 ▸ g3, h2.remove h1.desc.1⟩
    | none =>
      obtain ⟨hk0, hp⟩ := hr.resolve_left (fun h => h hM)
      obtain ⟨r'', g1, g2, _⟩ := remove_absent (ops := ops) h1 hk (by omega) hk0 (h2.none.mp hM) (fun e he hek => hp e.1 ((h2 e.1 k).mpr (by rw [← hek]; exact he)))
      rw [g1] at hi
      simp only [Option.some.injEq, Prod.mk.injEq] at hi
      exact ⟨m, hi.1 ▸ g2, h2.erase hM⟩
  | @kept r M k v r' x _ hM hkeep hi ih =>
    obtain ⟨m, h1, h2⟩ := ih
    rcases remove_present (ops := ops) hKH hH h1 ((h2 k v).mp hM) with ⟨f, g1, g2, g3⟩ | ⟨g0, _⟩
    · rw [g3] at hi
      simp only [Option.some.injEq, Prod.mk.injEq] at hi
      exact ⟨m, hi.1 ▸ h1, h2⟩
    · exact absurd hkeep g0
  | @updated r M k v r' ret _ hv hM hi ih =>
    obtain ⟨m, h1, h2⟩ := ih
    obtain ⟨old, hold⟩ := Option.ne_none_iff_exists'.mp hM
    obtain ⟨r'', a, b, g1, rfl, g3, _⟩ := update_present h1 ((h2 k old).mp hold) hv
    rw [g1] at hi
    simp only [Option.some.injEq, Prod.mk.injEq] at hi
    exact ⟨_, hi.1 ▸ g3, h2.update h1.desc.1⟩
  | @missed r M k v r' ret _ hM hk hi ih =>
    obtain ⟨m, h1, h2⟩ := ih
    rw [update_absent h1 hk (h2.none.mp hM)] at hi
    simp only [Option.some.injEq, Prod.mk.injEq] at hi
    exact ⟨m, hi.1 ▸ h1, h2⟩
  | @next r M k r' x _ hk hi ih =>
    obtain ⟨m, h1, h2⟩ := ih
    obtain ⟨r'', y, g1, g2, _⟩ := next_any h1 hk
    rw [g1] at hi
    simp only [Option.some.injEq, Prod.mk.injEq] at hi
    exact ⟨m, hi.1 ▸ g2, h2⟩
  | @prev r M k r' x _ hk hi ih =>
    obtain ⟨m, h1, h2⟩ := ih
    by_cases hk0 : k = 0
    · unfold Btree.prev at hi
      rw [if_pos hk0] at hi
      simp only [ite_self, Option.some.injEq, Prod.mk.injEq] at hi
      exact ⟨m, hi.1 ▸ h1, h2⟩
    · obtain ⟨r'', a, b, g1, g2, _⟩ := prev_ok h1 hk hk0
      rw [g1] at hi
      simp only [Option.some.injEq, Prod.mk.injEq] at hi
      exact ⟨m, hi.1 ▸ g2, h2⟩
  | @released r M n r' out _ hkeep hi ih =>
    obtain ⟨m, h1, h2⟩ := ih
    obtain ⟨r'', g1, g2, _⟩ := release_ok (ops := ops) (n := max n (m.length + 1)) hKH hH h1 (fun e he => hkeep e.1 e.2 ((h2 e.1 e.2).mpr he)) (by omega)
    rw [release_mono (by omega) hi] at g1
    simp only [Option.some.injEq, Prod.mk.injEq] at g1
    exact ⟨[], g1.1 ▸ g2, fun k v => by simp⟩

theorem halves (hK : K % 2 = 0) (h4 : 4 ≤ K) : ∃ H, K = 2 * H ∧ 2 ≤ H := ⟨K / 2, by omega, by omega⟩

/-! ### C28 -/

/-- A lookup gives what the map has, `NULL` for an absent key. -/
theorem lookup_partial (hK : K % 2 = 0) (h4 : 4 ≤ K) {r : Root} {M : Map} (h : Run K mem ops r M) (k : Nat) : lookup r k = some ((M k).getD 0) := by
  obtain ⟨H, hKH, hH⟩ := halves hK h4
  obtain ⟨m, h1, h2⟩ := h.inv hKH hH
  cases hM : M k with
  | none => exact lookup_absent h1 (h2.none.mp hM)
  | some v => exact lookup_present h1 ((h2 k v).mp hM)

/-- Stored pointers are not `NULL`. -/
theorem values (hK : K % 2 = 0) (h4 : 4 ≤ K) {r : Root} {M : Map} (h : Run K mem ops r M) {k v : Nat} (hM : M k = some v) : v ≠ 0 ∧ k < 2 ^ 64 := by
  obtain ⟨H, hKH, hH⟩ := halves hK h4
  obtain ⟨m, h1, h2⟩ := h.inv hKH hH
  exact (h1.desc.2 _ ((h2 k v).mp hM)).symm

/-- What an insertion returns. `NULL` is refused. For a key in the tree the answer is that of the user. A new key is stored unless the allocator
refused memory during this call. -/
theorem insert_partial (hK : K % 2 = 0) (h4 : 4 ≤ K) {r : Root} {M : Map} (h : Run K mem ops r M) {k v : Nat} (hk : k < 2 ^ 64) :
    ∃ r' ret, insert K mem ops r k v = some (r', ret) ∧
      (v = 0 → ret = -22) ∧
      (v ≠ 0 → ∀ old, M k = some old → ret = match ops.clash with | some f => f old v | none => -114) ∧
      (v ≠ 0 → M k = none → ret = 0 ∨ ret = -12 ∧ ∃ c, r.calls ≤ c ∧ c < r'.calls ∧ mem c = false) := by
  obtain ⟨H, hKH, hH⟩ := halves hK h4
  obtain ⟨m, h1, h2⟩ := h.inv hKH hH
  by_cases hv : v = 0
  · subst hv
    exact ⟨r, -22, by unfold Btree.insert; rw [if_pos rfl], fun _ => rfl, fun h => absurd rfl h, fun h => absurd rfl h⟩
  · rcases insert_ok (mem := mem) (ops := ops) hKH hH h1 hk hv with ⟨old, g0, r', g1, g2⟩ | ⟨g0, r', g1, g2, g3⟩ | ⟨g0, r', a, b, g1, _, _⟩
    · refine ⟨r', _, g1, fun h => absurd h hv, fun _ old' ho => ?_, fun _ hn => ?_⟩
      · rw [(h2 k old).mpr g0] at ho; cases ho; rfl
      · rw [(h2 k old).mpr g0] at hn; cases hn
    · refine ⟨r', -12, g1, fun h => absurd h hv, fun _ old ho => ?_, fun _ _ => Or.inr ⟨rfl, g3⟩⟩
      rw [h2.none.mpr g0] at ho; cases ho
    · refine ⟨r', 0, g1, fun h => absurd h hv, fun _ old ho => ?_, fun _ _ => Or.inl rfl⟩
      rw [h2.none.mpr g0] at ho; cases ho

/-- What a removal returns: the value that was stored, or the answer of the user who keeps it; `NULL` for an absent key. -/
theorem remove_partial (hK : K % 2 = 0) (h4 : 4 ≤ K) {r : Root} {M : Map} (h : Run K mem ops r M) {k : Nat} (hk : k < 2 ^ 64) (hr : Removable M k) :
    ∃ r' x, remove ops r k = some (r', x) ∧ (M k = none → x = 0) ∧ (∀ v, M k = some v → ¬ Keeps ops v → x = v) ∧
      (∀ v f, M k = some v → ops.remove = some f → f v ≠ 0 → x = f v) := by
  obtain ⟨H, hKH, hH⟩ := halves hK h4
  obtain ⟨m, h1, h2⟩ := h.inv hKH hH
  cases hM : M k with
  | none =>
    obtain ⟨hk0, hp⟩ := hr.resolve_left (fun h => h hM)
    obtain ⟨r', g1, g2, _⟩ := remove_absent (ops := ops) h1 hk (by omega) hk0 (h2.none.mp hM) (fun e he hek => hp e.1 ((h2 e.1 k).mpr (by rw [← hek]; exact he)))
    exact ⟨r', 0, g1, fun _ => rfl, (by intro v hv; cases hv), (by intro v f hv; cases hv)⟩
  | some v =>
    rcases remove_present (ops := ops) hKH hH h1 ((h2 k v).mp hM) with ⟨f, g1, g2, g3⟩ | ⟨g0, r', a, b, g1, _, _, _⟩
    · refine ⟨r, f v, g3, (by intro h; cases h), fun w hw hk => ?_, fun w f' hw hf _ => ?_⟩
      · cases hw; exact absurd ⟨f, g1, g2⟩ hk
      · cases hw; rw [g1] at hf; cases hf; rfl
    · refine ⟨r', v, g1, (by intro h; cases h), (by intro w hw _; cases hw; rfl), fun w f' hw hf hne => ?_⟩
      cases hw
      exact absurd ⟨f', hf, hne⟩ g0

/-- What an update returns. -/
theorem update_partial (hK : K % 2 = 0) (h4 : 4 ≤ K) {r : Root} {M : Map} (h : Run K mem ops r M) {k v : Nat} (hv : v ≠ 0) (hk : M k ≠ none ∨ k ≠ 0) :
    ∃ r', update r k v = some (r', if M k = none then -2 else 0) := by
  obtain ⟨H, hKH, hH⟩ := halves hK h4
  obtain ⟨m, h1, h2⟩ := h.inv hKH hH
  cases hM : M k with
  | none => exact ⟨r, by rw [update_absent h1 (hk.resolve_left fun h => h hM) (h2.none.mp hM)]; rfl⟩
  | some old =>
    obtain ⟨r', a, b, g1, _⟩ := update_present h1 ((h2 k old).mp hM) hv
    exact ⟨r', by rw [g1]; rfl⟩

/-- A release hands every value over once, in the order of the keys, and gives all memory back. -/
theorem release_all (hK : K % 2 = 0) (h4 : 4 ≤ K) {r : Root} {M : Map} (h : Run K mem ops r M) (hkeep : ∀ k v, M k = some v → ¬ Keeps ops v) :
    ∃ l n r', IsListing M l ∧ release ops n r = some (r', l.map Prod.snd) ∧ r'.node = 0 ∧ r'.height = 0 ∧ ∀ q, r'.heap q = none := by
  obtain ⟨H, hKH, hH⟩ := halves hK h4
  obtain ⟨m, h1, h2⟩ := h.inv hKH hH
  obtain ⟨r', g1, g2, g3, g4⟩ := release_ok (ops := ops) (n := m.length + 1) hKH hH h1 (fun e he => hkeep e.1 e.2 ((h2 e.1 e.2).mpr he)) (by omega)
  refine ⟨m, _, r', ⟨h1.desc.1, h2⟩, g1, g3, ?_, g4⟩
  generalize hm : [] = m' at g2
  cases g2 with
  | empty _ hh _ => exact hh
  | tree N rest h => exact absurd g3 (h.root (by simp))

/-! ### C80 -/

/-- The first element is the one with the largest key. -/
theorem first_result (hK : K % 2 = 0) (h4 : 4 ≤ K) {r : Root} {M : Map} (h : Run K mem ops r M) :
    ((∀ k, M k = none) ∧ (first r = some none ∨ first r = some (some (0, 0)))) ∨
    ∃ e, first r = some (some e) ∧ M e.1 = some e.2 ∧ ∀ j, e.1 < j → M j = none := by
  obtain ⟨H, hKH, hH⟩ := halves hK h4
  obtain ⟨m, h1, h2⟩ := h.inv hKH hH
  rcases first_ok (by omega) h1 with ⟨rfl, g⟩ | ⟨e, m', rfl, g⟩
  · exact Or.inl ⟨fun k => h2.none.mpr (by simp), g⟩
  · refine Or.inr ⟨e, g, (h2 e.1 e.2).mpr (by simp), fun j hj => h2.none.mpr fun hin => ?_⟩
    obtain ⟨x, hx, rfl⟩ := List.mem_map.mp hin
    rcases List.mem_cons.mp hx with rfl | hx
    · omega
    · have := (List.pairwise_cons.mp h1.desc.1).1 x hx; omega

/-- The last element is the one with the smallest key, if there is an element or there never was one. -/
theorem last_partial (hK : K % 2 = 0) (h4 : 4 ≤ K) {r : Root} {M : Map} (h : Run K mem ops r M) (hne : (∃ k, M k ≠ none) ∨ r.height = 0) :
    ((∀ k, M k = none) ∧ last r = some none) ∨ ∃ e, last r = some (some e) ∧ M e.1 = some e.2 ∧ ∀ j, j < e.1 → M j = none := by
  obtain ⟨H, hKH, hH⟩ := halves hK h4
  obtain ⟨m, h1, h2⟩ := h.inv hKH hH
  rcases last_ok h1 with ⟨rfl, ⟨_, g⟩ | ⟨g, _⟩⟩ | ⟨m', e, rfl, g⟩
  · exact Or.inl ⟨fun k => h2.none.mpr (by simp), g⟩
  · rcases hne with ⟨k, hk⟩ | hne
    · exact absurd (h2.none.mpr (by simp)) hk
    · exact absurd hne g
  · refine Or.inr ⟨e, g, (h2 e.1 e.2).mpr (by simp), fun j hj => h2.none.mpr fun hin => ?_⟩
    obtain ⟨x, hx, rfl⟩ := List.mem_map.mp hin
    rcases List.mem_append.mp hx with hx | hx
    · have := h1.desc.1.cross x hx e (by simp); omega
    · simp at hx; subst hx; omega

/-- The step from an element leads to the next smaller key and leaves the tree as it is. -/
theorem next_partial (hK : K % 2 = 0) (h4 : 4 ≤ K) {r : Root} {M : Map} (h : Run K mem ops r M) {k : Nat} (hk : M k ≠ none) :
    ∃ x, next r k = some (r, x) ∧ (x = none → ∀ j, j < k → M j = none) ∧ ∀ e, x = some e → IsBelow M k e := by
  obtain ⟨H, hKH, hH⟩ := halves hK h4
  obtain ⟨m, h1, h2⟩ := h.inv hKH hH
  obtain ⟨v, hv⟩ := Option.ne_none_iff_exists'.mp hk
  obtain ⟨a, b, rfl⟩ := List.append_of_mem ((h2 k v).mp hv)
  have hd := h1.desc.1
  refine ⟨b.head?, next_present h1, fun hx j hj => h2.none.mpr fun hin => ?_, fun e he => ?_⟩
  · obtain ⟨x, hx', rfl⟩ := List.mem_map.mp hin
    rw [List.head?_eq_none_iff] at hx
    subst hx
    rcases List.mem_append.mp hx' with hx' | hx'
    · have := hd.cross x hx' (k, v) (by simp); simp only at this; omega
    · simp at hx'; subst hx'; simp at hj
  · cases b with
    | nil => simp at he
    | cons f b =>
      simp at he
      subst he
      have hf := (List.pairwise_cons.mp hd.right).1 f (by simp)
      refine ⟨hf, (h2 f.1 f.2).mpr (by simp), fun j h3 h4 => h2.none.mpr fun hin => ?_⟩
      obtain ⟨x, hx, rfl⟩ := List.mem_map.mp hin
      rcases List.mem_append.mp hx with hx | hx
      · have := hd.cross x hx (k, v) (by simp); simp only at this; omega
      · rcases List.mem_cons.mp hx with rfl | hx
        · simp at h4
        · rcases List.mem_cons.mp hx with rfl | hx
          · omega
          · have := (List.pairwise_cons.mp (List.pairwise_cons.mp hd.right).2).1 x hx; omega

/-- The step back from a key leads to the next larger key, whether the tree has the key or not. -/
theorem prev_partial (hK : K % 2 = 0) (h4 : 4 ≤ K) {r : Root} {M : Map} (h : Run K mem ops r M) {k : Nat} (hk : k < 2 ^ 64) (hk0 : k ≠ 0) :
    ∃ r' x, prev r k = some (r', x) ∧ (x = none → ∀ j, k < j → M j = none) ∧ ∀ e, x = some e → IsAbove M k e := by
  obtain ⟨H, hKH, hH⟩ := halves hK h4
  obtain ⟨m, h1, h2⟩ := h.inv hKH hH
  obtain ⟨r', a, b, g1, _, _, rfl, g4, g5⟩ := prev_ok h1 hk hk0
  have hd := h1.desc.1
  refine ⟨r', a.getLast?, g1, fun hx j hj => h2.none.mpr fun hin => ?_, fun e he => ?_⟩
  · obtain ⟨x, hx', rfl⟩ := List.mem_map.mp hin
    rw [List.getLast?_eq_none_iff] at hx
    subst hx
    have := g5 x (by simpa using hx'); omega
  · rcases nil_or_snoc a with rfl | ⟨a, f, rfl⟩
    · simp at he
    · simp at he
      subst he
      refine ⟨g4 f (by simp), (h2 f.1 f.2).mpr (by simp), fun j h3 h4 => h2.none.mpr fun hin => ?_⟩
      obtain ⟨x, hx, rfl⟩ := List.mem_map.mp hin
      rcases List.mem_append.mp hx with hx | hx
      · rcases List.mem_append.mp hx with hx | hx
        · have := hd.left.cross x hx f (by simp); omega
        · simp at hx; subst hx; omega
      · have := g5 x hx; omega

theorem walkFrom_ok {H : Nat} {r : Root} {v : Nat} : ∀ (b : List (Nat × Nat)) (a : List (Nat × Nat)) (k v : Nat), Inv H K (2 ^ 64) r (a ++ (k, v) :: b) →
    walkFrom (b.length + 1) r k = some (r, b)
  | [], a, k, v, h => by
    rw [walkFrom, next_present h]
    rfl
  | e :: b, a, k, v, h => by
    have hv := (h.desc.2 e (by simp)).2
    rw [walkFrom, next_present h, Option.bind_some]
    show (if e.2 = 0 then _ else _) = _
    rw [if_neg hv]
    have := walkFrom_ok (r := r) (v := 0) b (a ++ [(k, v)]) e.1 e.2 (by simpa using h)
    rw [List.length_cons, this]
    rfl

/-- Iteration visits every element once, from the largest key down. -/
theorem walk_all (hK : K % 2 = 0) (h4 : 4 ≤ K) {r : Root} {M : Map} (h : Run K mem ops r M) : ∃ n l, walk n r = some (r, l) ∧ IsListing M l := by
  obtain ⟨H, hKH, hH⟩ := halves hK h4
  obtain ⟨m, h1, h2⟩ := h.inv hKH hH
  rcases first_ok (by omega) h1 with ⟨rfl, g | g⟩ | ⟨e, m', rfl, g⟩
  · exact ⟨0, [], by unfold walk; rw [g]; rfl, h1.desc.1, h2⟩
  · exact ⟨0, [], by unfold walk; rw [g]; rfl, h1.desc.1, h2⟩
  · refine ⟨m'.length + 1, e :: m', ?_, h1.desc.1, h2⟩
    unfold walk
    rw [g, Option.bind_some]
    show (if e.2 = 0 then _ else _) = _
    rw [if_neg (h1.desc.2 e (by simp)).2, walkFrom_ok (v := 0) m' [] e.1 e.2 h1]
    rfl

/-! ### Reachable trees -/

/-- Calls of a history, the last one first in a list of them. -/
inductive Call where
  | insert (k v : Nat)
  | remove (k : Nat)

/-- Functions of a user who asks for nothing special. -/
def plain : Ops := ⟨none, none⟩

/-- The tree and its map after the calls; memory is always there. -/
def exec (K : Nat) : List Call → Option (Root × Map)
  | [] => some (init, fun _ => none)
  | .insert k v :: cs =>
    match exec K cs with
    | none => none
    | some (r, M) =>
      if k < 2 ^ 64 ∧ M k = none then
        match Btree.insert K (fun _ => true) plain r k v with
        | some (r', 0) => some (r', M.set k (some v))
        | _ => none
      else none
  | .remove k :: cs =>
    match exec K cs with
    | none => none
    | some (r, M) =>
      if k < 2 ^ 64 ∧ M k ≠ none then
        match Btree.remove plain r k with
        | some (r', _) => some (r', M.set k none)
        | none => none
      else none

theorem exec_run (K : Nat) : ∀ (cs : List Call) (r : Root) (M : Map), exec K cs = some (r, M) → Run K (fun _ => true) plain r M := by
  intro cs
  induction cs with
  | nil => intro r M h; cases h; exact Run.init
  | cons c cs ih =>
    intro r M h
    cases c with
    | insert k v =>
      unfold exec at h
      split at h
      · cases h
      · rename_i r0 M0 he
        have h0 := ih r0 M0 he
        split at h
        · rename_i ho
          split at h
          · rename_i r' ha; cases h; exact Run.inserted h0 ho.1 ho.2 ha
          · cases h
        · cases h
    | remove k =>
      unfold exec at h
      split at h
      · cases h
      · rename_i r0 M0 he
        have h0 := ih r0 M0 he
        split at h
        · rename_i hc
          split at h
          · rename_i r' e ha
            cases h
            exact Run.removed h0 hc.1 (Or.inl hc.2) (by rintro v _ ⟨f, hf, _⟩; cases hf) ha
          · cases h
        · cases h

/-- A property of the tree after some calls holds of a reachable tree. -/
theorem exec_ex {K : Nat} (cs : List Call) (P : Root → Map → Bool) (h : (exec K cs).any (fun t => P t.1 t.2) = true) :
    ∃ r M, Run K (fun _ => true) plain r M ∧ P r M = true := by
  cases he : exec K cs with
  | none => rw [he] at h; cases h
  | some t => obtain ⟨r, M⟩ := t; rw [he] at h; exact ⟨r, M, exec_run K cs r M he, h⟩

/-- The insertions of these keys; the value of key `k` is `k + 1000`. -/
def inserts (l : List Nat) : List Call := l.map fun k => .insert k (k + 1000)

/-! ### Where the code falls short -/

/-- In a tree whose only element was removed, removing key 0 reads outside the node. -/
theorem remove_zero_violated : ∃ r M, Run 8 (fun _ => true) plain r M ∧ M 0 = none ∧ remove plain r 0 = none := by
  obtain ⟨r, M, h, hp⟩ := exec_ex (K := 8) [.remove 5, .insert 5 1] (fun r M => decide (M 0 = none ∧ remove plain r 0 = none)) (by decide +kernel)
  exact ⟨r, M, h, of_decide_eq_true hp⟩

/-- Removing an absent key that equals the first pointer of a full node reads outside the node. -/
theorem remove_pointer_violated : ∃ r M, Run 8 (fun _ => true) plain r M ∧ M 3 = none ∧ remove plain r 3 = none := by
  obtain ⟨r, M, h, hp⟩ := exec_ex (K := 8) (.insert 17 3 :: inserts [10, 11, 12, 13, 14, 15, 16]) (fun r M => decide (M 3 = none ∧ remove plain r 3 = none)) (by decide +kernel)
  exact ⟨r, M, h, of_decide_eq_true hp⟩

/-- An update of the absent key 0 is reported as done. -/
theorem update_zero_violated : ∃ r M r', Run 8 (fun _ => true) plain r M ∧ M 0 = none ∧ update r 0 7 = some (r', 0) := by
  obtain ⟨r, M, h, hp⟩ := exec_ex (K := 8) [.insert 5 1] (fun r M => decide (M 0 = none) && (update r 0 7).any fun (t : Root × Int) => decide (t.2 = 0)) (by decide +kernel)
  simp only [Bool.and_eq_true, decide_eq_true_eq, Option.any_eq_true] at hp
  obtain ⟨h0, ⟨r', x⟩, h1, h2⟩ := hp
  simp only at h2
  subst h2
  exact ⟨r, M, r', h, h0, h1⟩

/-- After storing `NULL` under key 2 and removing key 3, key 1 is lost. -/
theorem update_null_violated : ∃ r M r1 r2, Run 8 (fun _ => true) plain r M ∧ M 1 = some 1001 ∧ update r 2 0 = some (r1, 0) ∧
    remove plain r1 3 = some (r2, 1003) ∧ lookup r2 1 = some 0 := by
  obtain ⟨r, M, h, hp⟩ := exec_ex (K := 8) (inserts [1, 2, 3]) (fun r M => decide (M 1 = some 1001) && (update r 2 0).any fun (t : Root × Int) => decide (t.2 = 0) &&
    (remove plain t.1 3).any fun (u : Root × Nat) => decide (u.2 = 1003) && decide (lookup u.1 1 = some 0)) (by decide +kernel)
  simp only [Bool.and_eq_true, decide_eq_true_eq, Option.any_eq_true] at hp
  obtain ⟨h0, ⟨r1, x⟩, h1, h2, ⟨r2, y⟩, h3, h4, h5⟩ := hp
  simp only at h2 h3 h4 h5
  subst h2 h4
  exact ⟨r, M, r1, r2, h, h0, h1, h3, h5⟩

/-- In a tree whose only element was removed, asking for the last element reads outside the node. -/
theorem last_violated : ∃ r M, Run 8 (fun _ => true) plain r M ∧ last r = none := by
  obtain ⟨r, M, h, hp⟩ := exec_ex (K := 8) [.remove 5, .insert 5 1] (fun r _ => decide (last r = none)) (by decide +kernel)
  exact ⟨r, M, h, of_decide_eq_true hp⟩

/-- From key 0 there is no step back although larger keys are there. -/
theorem prev_zero_violated : ∃ r M r', Run 8 (fun _ => true) plain r M ∧ M 0 ≠ none ∧ M 5 ≠ none ∧ prev r 0 = some (r', none) := by
  obtain ⟨r, M, h, hp⟩ := exec_ex (K := 8) (inserts [0, 5]) (fun r M => decide (M 0 ≠ none ∧ M 5 ≠ none) && (prev r 0).any fun (t : Root × Option (Nat × Nat)) => decide (t.2 = none)) (by decide +kernel)
  simp only [Bool.and_eq_true, decide_eq_true_eq, Option.any_eq_true] at hp
  obtain ⟨⟨h0, h0'⟩, ⟨r', x⟩, h1, h2⟩ := hp
  simp only at h2
  subst h2
  exact ⟨r, M, r', h, h0, h0', h1⟩

/-- From the absent key 7 the step forward skips key 5. -/
theorem next_absent_violated : ∃ r M r', Run 8 (fun _ => true) plain r M ∧ M 5 ≠ none ∧ next r 7 = some (r', some (3, 1003)) := by
  obtain ⟨r, M, h, hp⟩ := exec_ex (K := 8) (inserts [9, 5, 3]) (fun r M => decide (M 5 ≠ none) && (next r 7).any fun (t : Root × Option (Nat × Nat)) => decide (t.2 = some (3, 1003))) (by decide +kernel)
  simp only [Bool.and_eq_true, decide_eq_true_eq, Option.any_eq_true] at hp
  obtain ⟨h0, ⟨r', x⟩, h1, h2⟩ := hp
  simp only at h2
  subst h2
  exact ⟨r, M, r', h, h0, h1⟩

/-- With an odd number of keys in a node, a split loses a key. -/
theorem odd_violated : ∃ r M k, Run 5 (fun _ => true) plain r M ∧ M k ≠ none ∧ lookup r k = some 0 := by
  obtain ⟨r, M, h, hp⟩ := exec_ex (K := 5) (inserts [1, 2, 3, 4, 5, 6]) (fun r M => (List.range 8).any fun k => decide (M k ≠ none ∧ lookup r k = some 0)) (by decide +kernel)
  obtain ⟨k, _, hk⟩ := List.any_eq_true.mp hp
  exact ⟨r, M, k, h, of_decide_eq_true hk⟩

/-! ### Examples -/

/-- A history with splits up to three levels and merges back. -/
def story : List Call := [25, 3, 17, 9, 1, 30, 12].map .remove ++ inserts (List.range 31)

example : ∃ r M, Run 4 (fun _ => true) plain r M ∧ M 5 = some 1005 ∧ M 9 = none ∧ lookup r 5 = some 1005 ∧ lookup r 9 = some 0 ∧ 3 ≤ r.height ∧
    first r = some (some (29, 1029)) ∧ last r = some (some (0, 1000)) := by
  obtain ⟨r, M, h, hp⟩ := exec_ex (K := 4) story (fun r M => decide (M 5 = some 1005 ∧ M 9 = none ∧ lookup r 5 = some 1005 ∧ lookup r 9 = some 0 ∧ 3 ≤ r.height ∧
    first r = some (some (29, 1029)) ∧ last r = some (some (0, 1000)))) (by decide +kernel)
  exact ⟨r, M, h, of_decide_eq_true hp⟩

/-- The iteration and the release of that tree. -/
example : ((exec 4 story).bind fun t => (walk 40 t.1).map fun u => u.2.length) = some 24 := by decide +kernel
example : ((exec 4 story).bind fun t => (release plain 40 t.1).map fun u => (u.2.length, u.2.head?, u.1.height)) = some (24, some 1029, 0) := by decide +kernel

end Bfdev.Btree

import Verif.Cache.Steps
import Verif.Heap.Props
/-! The two policies keep what they promise. -/
namespace Bfdev.Cache

/-- The list is ordered by release, the latest first. -/
def LruHolds (g : Past) (s L : List Nat) : Prop := s.Perm L ∧ s.Pairwise (fun a b => g.stamp b < g.stamp a) ∧ ∀ n, g.stamp n ≤ g.clock ∧ (n ∈ s → g.stamp n < g.clock)

/-- Every other held node was released after `n`. -/
def LruBest (g : Past) (L : List Nat) (n : Nat) : Prop := ∀ m ∈ L, m ≠ n → g.stamp n < g.stamp m

theorem lru_policy (cap : Nat) : Policy lru LruHolds LruBest cap where
  starving := by
    intro g s L h
    show s.isEmpty = true ↔ _
    rw [List.isEmpty_iff]
    exact ⟨fun e => by have := h.1; rw [e] at this; exact List.Perm.nil_eq this |>.symm, fun e => by have := h.1; rw [e] at this; exact List.Perm.eq_nil this⟩
  obtain := by
    intro g s L h hd hne _
    have hs : s ≠ [] := fun e => hne (by have := h.1; rw [e] at this; exact (List.Perm.nil_eq this).symm)
    refine ⟨s.getLast hs, s.erase (s.getLast hs), ?_, h.1.mem_iff.1 (List.getLast_mem hs), ?_, ?_⟩
    · show Option.map _ _ = _
      rw [List.getLast?_eq_some_getLast hs]; rfl
    · exact ⟨h.1.erase _, h.2.1.erase _, fun n => ⟨(h.2.2 n).1, fun hn => (h.2.2 n).2 (List.mem_of_mem_erase hn)⟩⟩
    · intro m hm hmn
      have hm := h.1.mem_iff.2 hm
      have e := List.dropLast_concat_getLast hs
      have hp := h.2.1
      rw [← e] at hp hm
      rcases List.mem_append.1 hm with hm | hm
      · exact (List.pairwise_append.1 hp).2.2 m hm _ (by simp)
      · simp at hm; exact absurd hm hmn
  get := by
    intro g s L n h _ hn _
    refine ⟨s.erase n, if_pos (h.1.mem_iff.2 hn), h.1.erase _, h.2.1.erase _, fun m => ⟨(h.2.2 m).1, fun hm => (h.2.2 m).2 (List.mem_of_mem_erase hm)⟩⟩
  put := by
    intro g s L n h _ hn _
    refine ⟨n :: s, rfl, h.1.cons _, ?_, ?_⟩
    · have hns : n ∉ s := fun hh => hn (h.1.mem_iff.1 hh)
      refine List.pairwise_cons.2 ⟨fun m hm => ?_, h.2.1.imp_of_mem fun {a b} ha hb hab => ?_⟩
      · show upd g.stamp n g.clock m < upd g.stamp n g.clock n
        rw [upd_same, upd_ne _ _ (show m ≠ n from fun e => hns (e ▸ hm))]
        exact (h.2.2 m).2 hm
      · show upd g.stamp n g.clock b < upd g.stamp n g.clock a
        rw [upd_ne _ _ (show a ≠ n from fun e => hns (e ▸ ha)), upd_ne _ _ (show b ≠ n from fun e => hns (e ▸ hb))]
        exact hab
    · intro m
      show upd g.stamp n g.clock m ≤ g.clock + 1 ∧ (_ → upd g.stamp n g.clock m < g.clock + 1)
      by_cases e : m = n
      · subst e; rw [upd_same]; omega
      · rw [upd_ne _ _ e]; have := (h.2.2 m).1; omega
  update := fun h _ _ => h
  clear := fun h _ => h
  refs := fun _ h => h

theorem lru_start : LruHolds .none [] [] := ⟨List.Perm.refl _, List.Pairwise.nil, fun n => ⟨Nat.le_refl _, by simp⟩⟩

/-- The heap holds the nodes, ordered by the number of hits. -/
def LfuHolds (g : Past) (s : Lfu) (L : List Nat) : Prop := Heap.IsHeap (lfuCmp s.count) s.heap L ∧ ∀ n, s.count n = g.hits n

/-- No held node was hit less often than `n`. -/
def LfuBest (g : Past) (L : List Nat) (n : Nat) : Prop := ∀ m ∈ L, g.hits n ≤ g.hits m

theorem lfuCmp_order (count : Nat → Nat) : Heap.Order (lfuCmp count) := by
  refine ⟨fun a b => ?_, fun a b c => ?_⟩
  · unfold lfuCmp
    repeat' split
    all_goals omega
  · unfold lfuCmp
    repeat' split
    all_goals omega

theorem lfuCmp_congr {c c' : Nat → Nat} {s : Heap.State} {L : List Nat} (h : Heap.IsHeap (lfuCmp c) s L) (hc : ∀ n ∈ L, c' n = c n) :
    Heap.IsHeap (lfuCmp c') s L := by
  obtain ⟨g, h1, h2, h3⟩ := h
  have mem : ∀ k, g k ≠ 0 → g k ∈ L := fun k hk => h3.mem_iff.1 ((Heap.mem_nodes h1 _).2 ⟨hk, k, rfl⟩)
  refine ⟨g, h1, fun k hk hp => ?_, h3⟩
  have := h2 k hk hp
  unfold lfuCmp at this ⊢
  rw [hc _ (mem _ hk), hc _ (mem _ hp)]
  exact this

theorem lfu_policy (fuel cap : Nat) (hf : cap ≤ fuel) (hc : cap < W) : Policy (lfu fuel) LfuHolds LfuBest cap where
  starving := by
    intro g s L h
    show (s.heap.root == 0) = true ↔ _
    rw [beq_iff_eq]
    exact (Heap.heap_root (lfuCmp_order _) h.1).1
  obtain := by
    intro g s L h hd hne hl
    obtain ⟨r1, r2, -⟩ := Heap.heap_root (lfuCmp_order _) h.1
    obtain ⟨m1, m2⟩ := r2 hne
    obtain ⟨s', e1, e2⟩ := Heap.delete_sound (fuel := fuel) (lfuCmp_order _) h.1 m1 (Nat.lt_of_le_of_lt hl hc) (Nat.le_trans hl hf)
    refine ⟨s.heap.root, { s with heap := s' }, ?_, m1, ⟨e2, h.2⟩, fun m hm => ?_⟩
    · show (if s.heap.root = 0 then none else _) = _
      rw [if_neg (fun e => hne (r1.1 e)), e1]; rfl
    · have := m2 m hm
      rw [← h.2, ← h.2]
      unfold lfuCmp at this
      split at this
      · omega
      · split at this
        · omega
        · omega
  get := by
    intro g s L n h hd hn hl
    obtain ⟨s', e1, e2⟩ := Heap.delete_sound (fuel := fuel) (lfuCmp_order _) h.1 hn (Nat.lt_of_le_of_lt hl hc) (Nat.le_trans hl hf)
    refine ⟨{ s with heap := s' }, ?_, e2, h.2⟩
    show Option.map _ _ = _
    rw [e1]; rfl
  put := by
    intro g s L n h hn hnL hl
    obtain ⟨s', e1, e2⟩ := Heap.insert_sound (fuel := fuel) (lfuCmp_order _) h.1 hn hnL (Nat.lt_of_le_of_lt hl hc) (Nat.le_trans hl hf)
    refine ⟨{ s with heap := s' }, ?_, e2, h.2⟩
    show Option.map _ _ = _
    rw [e1]; rfl
  update := by
    intro g s L n h hn hh
    refine ⟨lfuCmp_congr h.1 fun m hm => upd_ne _ _ (fun e => hn (e ▸ hm)), fun m => ?_⟩
    show upd s.count n ((s.count n + 1) % W) m = upd g.hits n (g.hits n + 1) m
    by_cases e : m = n
    · subst e; rw [upd_same, upd_same, h.2, Nat.mod_eq_of_lt hh]
    · rw [upd_ne _ _ e, upd_ne _ _ e, h.2]
  clear := by
    intro g s L n h hn
    refine ⟨lfuCmp_congr h.1 fun m hm => upd_ne _ _ (fun e => hn (e ▸ hm)), fun m => ?_⟩
    show upd s.count n 0 m = upd g.hits n 0 m
    by_cases e : m = n
    · subst e; rw [upd_same, upd_same]
    · rw [upd_ne _ _ e, upd_ne _ _ e, h.2]
  refs := fun _ h => h

theorem lfu_start (h : Heap.State) : LfuHolds .none ⟨Heap.init h, fun _ => 0⟩ [] := ⟨Heap.init_sound _ _, fun _ => rfl⟩

end Bfdev.Cache

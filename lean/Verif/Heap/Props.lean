import Verif.Heap.Lemmas
/-!
Property C16 (heap) and C74 (lookup of a heap node by number).
-/
namespace Bfdev.Heap

theorem mem_nodes {s : State} {g : Nat → Addr} (h : Shape s g) (x : Addr) : x ∈ nodes s g ↔ x ≠ 0 ∧ ∃ k, g k = x := by
  unfold nodes
  rw [List.mem_map]
  constructor
  · rintro ⟨k, hk, rfl⟩
    exact ⟨(h.number _).2 (by have := List.mem_range.1 hk; omega), _, rfl⟩
  · rintro ⟨hx, k, rfl⟩
    have := (h.number k).1 hx
    exact ⟨k - 1, List.mem_range.2 (by omega), by rw [Nat.sub_add_cancel this.1]⟩

theorem nodup_nodes {s : State} {g : Nat → Addr} (h : Shape s g) : (nodes s g).Nodup := by
  unfold nodes List.Nodup
  rw [List.pairwise_map]
  refine List.Pairwise.imp_of_mem (fun ha hb hab e => ?_) (List.nodup_range (n := s.count))
  have := List.mem_range.1 ha
  have := h.inj _ _ ((h.number _).2 (by omega)) e
  omega

theorem length_nodes (s : State) (g : Nat → Addr) : (nodes s g).length = s.count := by simp [nodes]

theorem nodes_perm {s : State} {g : Nat → Addr} (h : Shape s g) {S : List Addr} (hd : S.Nodup) (hm : ∀ x, (x ≠ 0 ∧ ∃ k, g k = x) ↔ x ∈ S) : (nodes s g).Perm S :=
  (List.perm_ext_iff_of_nodup (nodup_nodes h) hd).2 fun x => (mem_nodes h x).trans (hm x)

theorem IsHeap.nodup {cmp : Addr → Addr → Int} {s : State} {S : List Addr} (h : IsHeap cmp s S) : S.Nodup := by
  obtain ⟨g, h1, _, h3⟩ := h
  exact h3.nodup_iff.1 (nodup_nodes h1)

theorem IsHeap.count {cmp : Addr → Addr → Int} {s : State} {S : List Addr} (h : IsHeap cmp s S) : s.count = S.length := by
  obtain ⟨g, _, _, h3⟩ := h
  rw [← length_nodes s g]; exact h3.length_eq

/-- Insertion of a node that is not in the heap: it does not fail, and the heap has that one node more. -/
theorem insert_sound {cmp : Addr → Addr → Int} (ho : Order cmp) {fuel : Nat} {s : State} {S : List Addr} (h : IsHeap cmp s S) {n : Addr} (hn : n ≠ 0) (hnS : n ∉ S)
    (hb : S.length + 1 < 2 ^ 64) (hf : S.length + 1 ≤ fuel) : ∃ s', insert cmp fuel s n = some s' ∧ IsHeap cmp s' (n :: S) := by
  have hcnt := h.count
  have hnd := h.nodup
  obtain ⟨g, h1, h2, h3⟩ := h
  have hfresh : ∀ k, g k ≠ n := fun k e => hnS (h3.mem_iff.1 ((mem_nodes h1 n).2 ⟨hn, k, e⟩))
  obtain ⟨w1, _⟩ := link_shape h1 (by rw [hcnt]; exact hb) hn hfresh
  have hnew : (fun k => if k = s.count + 1 then n else g k) (s.count + 1) = n := if_pos rfl
  obtain ⟨s', g', e1, e2, e3, e4, _, _⟩ := fixup_ok ho fuel _ _ (s.count + 1) w1 (by rw [if_pos rfl]; exact hn) (link_up h1 h2 n) (by omega)
  rw [if_pos rfl] at e1
  refine ⟨s', by rw [insert, findParent_ok h1 (by rw [hcnt]; exact hb)]; exact e1, g', e2, e3, nodes_perm e2 (List.nodup_cons.2 ⟨hnS, hnd⟩) fun x => ?_⟩
  rw [← e4, List.mem_cons, ← h3.mem_iff, mem_nodes h1]
  constructor
  · rintro ⟨hx, k, hk⟩
    dsimp only at hk
    by_cases e : k = s.count + 1
    · rw [if_pos e] at hk; exact Or.inl hk.symm
    · rw [if_neg e] at hk; exact Or.inr ⟨hx, k, hk⟩
  · rintro (rfl | ⟨hx, k, hk⟩)
    · exact ⟨hn, _, hnew⟩
    · have := (h1.number k).1 (by rw [hk]; exact hx)
      exact ⟨hx, k, by dsimp only; rw [if_neg (by omega), hk]⟩

/-- The removed node is not reached from the heap, so overwriting it changes nothing. -/
theorem poison_shape {s : State} {g : Nat → Addr} (h : Shape s g) {n a b c : Addr} (hn : ∀ k, g k = n → n = 0) : Shape (s.setNode n a b c) g := by
  refine ⟨h.number, h.inj, h.root, fun k hk => ?_, fun k hk => ?_, fun k hk => ?_⟩
  · show (if g k = n then b else s.left (g k)) = _
    rw [if_neg (fun e => hk (e.trans (hn k e))), h.left k hk]
  · show (if g k = n then c else s.right (g k)) = _
    rw [if_neg (fun e => hk (e.trans (hn k e))), h.right k hk]
  · show (if g k = n then a else s.parent (g k)) = _
    rw [if_neg (fun e => hk (e.trans (hn k e))), h.parent k hk]

/-- Deletion of any node of the heap: it does not fail, and the heap keeps exactly the others. -/
theorem delete_sound {cmp : Addr → Addr → Int} (ho : Order cmp) {fuel : Nat} {s : State} {S : List Addr} (h : IsHeap cmp s S) {n : Addr} (hnS : n ∈ S)
    (hb : S.length < 2 ^ 64) (hf : S.length ≤ fuel) : ∃ s', delete cmp fuel s n = some s' ∧ IsHeap cmp s' (S.erase n) := by
  have hcnt := h.count
  have hnd := h.nodup
  obtain ⟨g, h1, h2, h3⟩ := h
  obtain ⟨hn, m, rfl⟩ := (mem_nodes h1 n).1 (h3.mem_iff.2 hnS)
  obtain ⟨t, r1, r2, r3⟩ := remove_ok h1 (by rw [hcnt]; exact hb) hn
  have hmem : ∀ (g' : Nat → Addr), Rng (cutg g s.count m) g' → ∀ x, (x ≠ 0 ∧ ∃ k, g' k = x) ↔ x ∈ S.erase (g m) := by
    intro g' hr x
    rw [← hr, cutg_mem h1 hn, hnd.mem_erase_iff, ← h3.mem_iff, mem_nodes h1]
    constructor
    · rintro ⟨a, b, c⟩; exact ⟨b, a, c⟩
    · rintro ⟨a, b, c⟩; exact ⟨b, a, c⟩
  have fin : ∀ (t' : State) (g' : Nat → Addr), Shape t' g' → Ordered cmp g' → Rng (cutg g s.count m) g' →
      IsHeap cmp (t'.setNode (g m) 0x520 0x500 0x510) (S.erase (g m)) := by
    intro t' g' a b c
    have hp : Shape (t'.setNode (g m) 0x520 0x500 0x510) g' := poison_shape a (fun k hk => by
      refine Decidable.byContradiction fun h0 => ?_
      have := (hmem g' c (g m)).1 ⟨h0, k, hk⟩
      exact ((hnd.mem_erase_iff).1 this).1 rfl)
    exact ⟨g', hp, b, nodes_perm hp (hnd.erase _) (hmem g' c)⟩
  unfold delete
  rw [r1, Option.bind_some]
  by_cases hm : m = s.count
  · rw [if_pos hm, if_neg (by simp)]
    refine ⟨_, rfl, fin t _ r2 (fun k hk hk2 => ?_) (Rng.refl _)⟩
    have val : ∀ k, cutg g s.count m k ≠ 0 → cutg g s.count m k = g k := by
      intro k hk
      unfold cutg at hk ⊢
      by_cases e : k = s.count
      · rw [if_pos e] at hk; exact absurd rfl hk
      · rw [if_neg e, if_neg (by omega)]
    have a := val _ hk
    have b := val _ hk2
    rw [a] at hk ⊢
    rw [b] at hk2 ⊢
    exact h2 k hk hk2
  · have hL : g s.count ≠ 0 := (h1.number _).2 (by have := (h1.number m).1 hn; omega)
    have hmn := (h1.number m).1 hn
    rw [if_neg hm, if_pos hL]
    have hv : cutg g s.count m m = g s.count := by unfold cutg; rw [if_neg hm, if_pos rfl]
    obtain ⟨s', g', e1, e2, e3, e4, _, _⟩ := erase_ok ho fuel t _ m r2 (by rw [hv]; exact hL) (cutg_except ho h1 h2 hn hm) (by omega)
    rw [hv] at e1
    exact ⟨_, by rw [e1]; rfl, fin s' g' e2 e3 e4⟩

theorem init_sound (cmp : Addr → Addr → Int) (s : State) : IsHeap cmp (init s) [] :=
  ⟨fun _ => 0, ⟨fun k => ⟨fun h => absurd rfl h, fun h => by have : k ≤ 0 := h.2; omega⟩, fun _ _ h => absurd rfl h, rfl, fun _ h => absurd rfl h, fun _ h => absurd rfl h,
    fun _ h => absurd rfl h⟩, fun _ h => absurd rfl h, List.Perm.refl _⟩

theorem runAll_sound {cmp : Addr → Addr → Int} (ho : Order cmp) (fuel bound : Nat) (hb : bound ≤ 2 ^ 64) (hf : bound ≤ fuel) :
    ∀ (ops : List Op) (s : State) (S : List Addr), IsHeap cmp s S → S.length < bound → okAll bound S ops →
    ∃ s', runAll cmp fuel s ops = some s' ∧ IsHeap cmp s' (specAll S ops) := by
  intro ops
  induction ops with
  | nil => intro s S h _ _; exact ⟨s, rfl, h⟩
  | cons op ops ih =>
    intro s S h hl hok
    cases op with
    | insert n =>
      obtain ⟨a, b, c, d⟩ := hok
      obtain ⟨s', e, h'⟩ := insert_sound ho h a b (Nat.lt_of_lt_of_le c hb) (Nat.le_trans (Nat.le_of_lt c) hf)
      obtain ⟨s'', e', h''⟩ := ih s' _ h' (by simpa using c) d
      exact ⟨s'', by rw [runAll, Op.run, e]; exact e', h''⟩
    | delete n =>
      obtain ⟨a, b⟩ := hok
      obtain ⟨s', e, h'⟩ := delete_sound ho h a (Nat.lt_of_lt_of_le hl hb) (Nat.le_trans (Nat.le_of_lt hl) hf)
      obtain ⟨s'', e', h''⟩ := ih s' _ h' (Nat.lt_of_le_of_lt (by rw [List.length_erase_of_mem a]; omega) hl) b
      exact ⟨s'', by rw [runAll, Op.run, e]; exact e', h''⟩

/-- **C16.** Every history of insertions of new nodes and deletions of nodes of the heap, in any order, runs to its end, and leaves a complete
binary tree in which no node is less than its parent and whose nodes are exactly those inserted and not deleted. -/
theorem heap_histories {cmp : Addr → Addr → Int} (ho : Order cmp) (fuel bound : Nat) (hb : bound ≤ 2 ^ 64) (hf : bound ≤ fuel) (h0 : 0 < bound) (s : State) (ops : List Op)
    (hok : okAll bound [] ops) : ∃ s', runAll cmp fuel (init s) ops = some s' ∧ IsHeap cmp s' (specAll [] ops) :=
  runAll_sound ho fuel bound hb hf ops _ [] (init_sound cmp s) h0 hok

theorem root_min {cmp : Addr → Addr → Int} (ho : Order cmp) {s : State} {g : Nat → Addr} (h : Shape s g) (hord : Ordered cmp g) :
    ∀ k, g k ≠ 0 → cmp (g 1) (g k) ≤ 0 := by
  intro k
  induction k using Nat.strongRecOn with
  | _ k ih =>
    intro hk
    have hkn := (h.number k).1 hk
    by_cases e : k = 1
    · rw [e]
      exact ho.le_of_not (fun hh => by have := (ho.flip _ _).1 hh; omega)
    · have hp : g (k / 2) ≠ 0 := (h.number _).2 (by omega)
      exact ho.trans _ _ _ (ih (k / 2) (by omega) hp) (hord k hk hp)

/-- **C16.** The root pointer is NULL exactly when the heap is empty, and is otherwise a node of the heap that no other node is less than;
the count is the number of nodes. -/
theorem heap_root {cmp : Addr → Addr → Int} (ho : Order cmp) {s : State} {S : List Addr} (h : IsHeap cmp s S) :
    (s.root = 0 ↔ S = []) ∧ (S ≠ [] → s.root ∈ S ∧ ∀ x ∈ S, ¬ cmp x s.root < 0) ∧ s.count = S.length := by
  have hcnt := h.count
  obtain ⟨g, h1, h2, h3⟩ := h
  have hne : S ≠ [] → g 1 ≠ 0 := fun hS => (h1.number 1).2 ⟨by omega, by rw [hcnt]; exact List.length_pos_iff.2 hS⟩
  refine ⟨⟨fun hr => Decidable.byContradiction fun hS => hne hS (h1.root ▸ hr), ?_⟩, fun hS => ⟨?_, fun x hx => ?_⟩, hcnt⟩
  · intro hS
    rw [h1.root]
    refine Decidable.byContradiction fun hh => ?_
    have := (h1.number 1).1 hh
    rw [hcnt, hS] at this
    simp at this
  · rw [h1.root]
    exact h3.mem_iff.1 ((mem_nodes h1 _).2 ⟨hne hS, 1, rfl⟩)
  · obtain ⟨hx0, k, rfl⟩ := (mem_nodes h1 x).1 (h3.mem_iff.2 hx)
    have := root_min ho h1 h2 k hx0
    rw [← h1.root] at this
    intro hh
    have := (ho.flip _ _).1 hh
    omega

theorem next_ok {s : State} {g : Nat → Addr} (h : Shape s g) (index : Nat) (hi : index + 2 < 2 ^ 64) : next s index = some (g (index + 2), index + 1) := by
  unfold next
  dsimp only
  rw [Nat.mod_eq_of_lt (show index + 1 < 2 ^ 64 by omega), Nat.mod_eq_of_lt hi]
  obtain ⟨d, e, h1, h2⟩ := flsuf_ok (index + 2) (by omega) hi
  rw [e, Option.map_some, h.root]
  have e1 : (index + 2) / 2 ^ d = 1 := by
    have a : 1 ≤ (index + 2) / 2 ^ d := (Nat.le_div_iff_mul_le (Nat.two_pow_pos _)).2 (by omega)
    have b : (index + 2) / 2 ^ d < 2 := (Nat.div_lt_iff_lt_mul (Nat.two_pow_pos _)).2 (by rw [Nat.pow_succ] at h2; omega)
    omega
  have := descend_ok h (index + 2) d h1
  rw [e1] at this
  rw [this]

theorem forEach_ok {s : State} {g : Nat → Addr} (h : Shape s g) (hc : s.count + 1 < 2 ^ 64) : ∀ (n index : Nat), index + n = s.count →
    forEach s (n + 1) (g (index + 1), index) = some ((List.range n).map fun k => g (index + 1 + k)) := by
  intro n
  induction n with
  | zero =>
    intro index hi
    rw [forEach, if_pos]
    · rfl
    · exact Decidable.byContradiction fun hh => by have := (h.number (index + 1)).1 hh; omega
  | succ n ih =>
    intro index hi
    rw [forEach, if_neg ((h.number (index + 1)).2 (by omega)), next_ok h index (by omega), Option.bind_some, ih (index + 1) (by omega), Option.map_some,
      List.range_succ_eq_map, List.map_cons, List.map_map]
    congr 2
    apply List.map_congr_left
    intro a _
    show g (index + 1 + 1 + a) = g (index + 1 + (a + 1))
    congr 1; omega

/-- **C16.** The level-order iteration visits every node of the heap exactly once, the root first. -/
theorem heap_iteration {cmp : Addr → Addr → Int} {s : State} {S : List Addr} (h : IsHeap cmp s S) (hb : S.length + 1 < 2 ^ 64) :
    ∃ L, forEach s (S.length + 1) (first s) = some L ∧ L.Perm S ∧ L.Nodup ∧ L.head? = if S = [] then none else some s.root := by
  have hcnt := h.count
  obtain ⟨g, h1, _, h3⟩ := h
  refine ⟨nodes s g, ?_, h3, nodup_nodes h1, ?_⟩
  · have := forEach_ok h1 (by omega) S.length 0 (by omega)
    rw [first, h1.root, this, nodes, hcnt]
    simp only [Nat.zero_add, Nat.add_comm]
  · by_cases hS : S = []
    · rw [if_pos hS, nodes, hcnt, hS]; rfl
    · rw [if_neg hS, nodes, hcnt, h1.root]
      have := List.length_pos_iff.2 hS
      obtain ⟨k, hk⟩ : ∃ k, S.length = k + 1 := ⟨S.length - 1, by omega⟩
      rw [hk, List.range_succ_eq_map]; rfl

/-- Taking the root out again and again. -/
def drain (cmp : Addr → Addr → Int) (fuel : Nat) : Nat → State → Option (List Addr)
  | 0, _ => none
  | n + 1, s => if s.root = 0 then some [] else (delete cmp fuel s s.root).bind fun s' => (drain cmp fuel n s').map (s.root :: ·)

/-- **C16.** Taking the root out until the heap is empty yields every node once, in ascending order. -/
theorem heap_drain {cmp : Addr → Addr → Int} (ho : Order cmp) (fuel : Nat) : ∀ (n : Nat) (s : State) (S : List Addr), IsHeap cmp s S → S.length < n → S.length < 2 ^ 64 → S.length ≤ fuel →
    ∃ L, drain cmp fuel n s = some L ∧ L.Perm S ∧ L.Pairwise (fun a b => cmp a b ≤ 0) := by
  intro n
  induction n with
  | zero => intro s S _ h; omega
  | succ n ih =>
    intro s S h hn hb hf
    obtain ⟨r1, r2, _⟩ := heap_root ho h
    rw [drain]
    by_cases h0 : s.root = 0
    · rw [if_pos h0, r1.1 h0]
      exact ⟨[], rfl, List.Perm.refl _, List.Pairwise.nil⟩
    · rw [if_neg h0]
      obtain ⟨hm, hmin⟩ := r2 (fun e => h0 (r1.2 e))
      obtain ⟨s', e, h'⟩ := delete_sound ho h hm hb hf
      have hle := List.length_erase_of_mem hm
      have hpos := List.length_pos_of_mem hm
      obtain ⟨L, e', p, q⟩ := ih s' _ h' (by omega) (by omega) (by omega)
      refine ⟨s.root :: L, by rw [e, Option.bind_some, e']; rfl, ?_, List.pairwise_cons.2 ⟨fun x hx => ?_, q⟩⟩
      · exact (List.Perm.cons _ p).trans (List.perm_cons_erase hm).symm
      · exact ho.le_of_not (hmin x (List.mem_of_mem_erase (p.mem_iff.1 hx)))

/-! ### A concrete case -/

def zeroMem : State := ⟨fun _ => 0, fun _ => 0, fun _ => 0, 0, 0⟩
def byAddr (a b : Addr) : Int := (a / 10 : Nat) - (b / 10 : Nat)

theorem byAddr_order : Order byAddr := ⟨fun a b => by unfold byAddr; omega, fun a b c => by unfold byAddr; omega⟩

def demo : List Op := [.insert 50, .insert 30, .insert 31, .insert 20, .insert 70, .insert 10, .delete 20, .insert 20, .delete 50]

example : okAll 10 [] demo := by simp [demo, okAll]
example : specAll [] demo = [20, 10, 70, 31, 30] := by decide
example : ((runAll byAddr 10 (init zeroMem) demo).bind fun s => (drain byAddr 10 10 s)) = some [10, 20, 30, 31, 70] := by decide +kernel
example : ((runAll byAddr 10 (init zeroMem) demo).bind fun s => (forEach s 10 (first s))) = some [10, 30, 20, 31, 70] := by decide +kernel

/-! ### C74: lookup of a node by its number -/

/-- **C74 is violated**: with four nodes in the heap, the lookup of node 1 does not return the root but NULL, and the lookup of node 3 returns
NULL although there is such a node. -/
theorem heap_find_violated : ∃ s, runAll byAddr 10 (init zeroMem) [.insert 10, .insert 20, .insert 30, .insert 40] = some s ∧ s.count = 4 ∧ s.root = 10 ∧
    s.right s.root = 30 ∧ find s 1 ≠ some s.root ∧ find s 3 ≠ some 30 := by
  have h : ((runAll byAddr 10 (init zeroMem) [.insert 10, .insert 20, .insert 30, .insert 40]).map fun s => (s.count, s.root, s.right s.root, find s 1, find s 3)) =
      some (4, 10, 30, some 0, some 0) := by decide +kernel
  obtain ⟨s, hs, he⟩ := Option.map_eq_some_iff.1 h
  refine ⟨s, hs, ?_⟩
  simp only [Prod.mk.injEq] at he
  obtain ⟨a, b, c, d, e⟩ := he
  refine ⟨a, b, by rw [b] at c ⊢; exact c, ?_, ?_⟩
  · rw [d, b]; simp
  · rw [e]; simp

/-- **C74, partial**: a number on the last level of the tree is looked up correctly. Missing: numbers on other levels, for which the function
starts at the wrong bit. -/
theorem heap_find_partial {s : State} {g : Nat → Addr} (h : Shape s g) (hc : s.count ≠ 0) (hb : s.count < 2 ^ 64) (N : Nat) (hN0 : N ≠ 0)
    (hN : N.log2 = s.count.log2) : find s N = some (g N) := by
  refine find_same_level h (by omega) hb N (fun d => ?_)
  rw [← Nat.le_log2 hN0, ← Nat.le_log2 hc, ← Nat.log2_lt hN0, ← Nat.log2_lt hc, hN]

example : ((runAll byAddr 10 (init zeroMem) [.insert 10, .insert 20, .insert 30, .insert 40, .insert 50, .insert 60]).bind fun s => find s 5) = some 50 := by decide +kernel
example : Nat.log2 5 = Nat.log2 6 := by decide +kernel

/-- The lookup in an empty heap counts leading zeros of zero, which is undefined. -/
theorem heap_find_empty (s : State) (h : s.count = 0) (N : Nat) : find s N = none := by
  unfold find; rw [h]; rfl

end Bfdev.Heap

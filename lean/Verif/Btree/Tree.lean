import Verif.Btree.Remove
/-! The tree as its user sees it: the list of its elements, largest key first. -/
namespace Bfdev.Btree

variable {H K W : Nat} {ops : Ops} {mem : Nat → Bool}

/-! Order -/

/-- Spans go down. -/
def Falls (W : Nat) (S : List Sp) : Prop := S.Pairwise (fun c d => d.hi ≤ c.lo) ∧ ∀ c ∈ S, c.hi ≤ W

theorem kids_falls : ∀ {hi lo : Nat} {es : List (Nat × Nat)}, Desc es → (∀ e ∈ es, lo ≤ e.1 ∧ e.1 < hi) →
    (kids hi es).Pairwise (fun c d => d.hi ≤ c.lo) ∧ ∀ c ∈ kids hi es, lo ≤ c.lo ∧ c.hi ≤ hi
  | _, _, [], _, _ => by simp [kids]
  | hi, lo, e :: es, hd, hk => by
    obtain ⟨h1, h2⟩ := List.pairwise_cons.mp hd
    obtain ⟨i1, i2⟩ := kids_falls (hi := e.1) (lo := lo) h2 fun x hx => ⟨(hk x (by simp [hx])).1, h1 x hx⟩
    have := hk e (by simp)
    refine ⟨List.pairwise_cons.mpr ⟨fun c hc => (i2 c hc).2, i1⟩, fun c hc => ?_⟩
    rcases List.mem_cons.mp hc with rfl | hc
    · exact ⟨this.1, Nat.le_refl _⟩
    · have := i2 c hc; omega

theorem Link.falls : ∀ {W : Nat} {S : List Sp} {N : List GN}, Link S N → Falls W S → N.Pairwise (fun m n => n.hi ≤ m.lo) ∧ ∀ n ∈ N, n.hi ≤ W
  | _, [], [], _, _ => by simp
  | _, [], _ :: _, h, _ => absurd h (by simp [Link])
  | _, _ :: _, [], h, _ => absurd h (by simp [Link])
  | W, c :: S, n :: N, h, hf => by
    obtain ⟨h1, h2, h3, h4⟩ := h
    obtain ⟨f1, f2⟩ := List.pairwise_cons.mp hf.1
    obtain ⟨i1, i2⟩ := Link.falls (W := c.lo) h4 ⟨f2, f1⟩
    refine ⟨List.pairwise_cons.mpr ⟨fun m hm => ?_, i1⟩, fun m hm => ?_⟩
    · have := i2 m hm; omega
    · have := hf.2 c (by simp)
      rcases List.mem_cons.mp hm with rfl | hm
      · omega
      · have := (Link.falls (W := W) h4 ⟨f2, fun d hd => hf.2 d (by simp [hd])⟩).2 m hm; omega

theorem kidsOf_falls : ∀ {W : Nat} {N : List GN}, N.Pairwise (fun m n => n.hi ≤ m.lo) → (∀ n ∈ N, n.hi ≤ W) → (∀ n ∈ N, n.Ok K) → Falls W (kidsOf N)
  | _, [], _, _, _ => by simp [kidsOf, Falls]
  | W, n :: N, h1, h2, h3 => by
    obtain ⟨p1, p2⟩ := List.pairwise_cons.mp h1
    have ok := h3 n (by simp)
    obtain ⟨k1, k2⟩ := kids_falls ok.desc ok.key
    obtain ⟨i1, i2⟩ := kidsOf_falls p2 (fun m hm => h2 m (by simp [hm])) fun m hm => h3 m (by simp [hm])
    obtain ⟨_, i3⟩ := kidsOf_falls (W := n.lo) p2 (fun m hm => p1 m hm) fun m hm => h3 m (by simp [hm])
    rw [kidsOf_cons]
    refine ⟨List.pairwise_append.mpr ⟨k1, i1, fun c hc d hd => ?_⟩, fun c hc => ?_⟩
    · have := k2 c hc; have := i3 d hd; omega
    · rcases List.mem_append.mp hc with hc | hc
      · have := k2 c hc; have := h2 n (by simp); omega
      · exact i2 c hc

theorem spans_falls {root : Nat} : ∀ {rest : List (List GN)} {leaf : Bool}, Chain K W root leaf rest → Falls W (spans root W rest)
  | [], _, _ => by simp [spans, Falls]
  | N :: rest, _, h => by
    obtain ⟨h1, h2⟩ := Link.falls h.1 (spans_falls h.2.2.2.2)
    exact kidsOf_falls h1 h2 h.2.1

theorem flat_desc_of : ∀ {N : List GN}, N.Pairwise (fun m n => n.hi ≤ m.lo) → (∀ n ∈ N, n.Ok K) → Desc (flat N)
  | [], _, _ => by simp [flat, Desc]
  | n :: N, h1, h2 => by
    obtain ⟨p1, p2⟩ := List.pairwise_cons.mp h1
    have ok := h2 n (by simp)
    rw [flat_cons]
    refine List.pairwise_append.mpr ⟨ok.desc, flat_desc_of p2 fun m hm => h2 m (by simp [hm]), fun x hx y hy => ?_⟩
    obtain ⟨m, hm, hy⟩ := List.mem_flatMap.mp hy
    have := ok.key x hx
    have := (h2 m (by simp [hm])).key y hy
    have := p1 m hm
    omega

theorem St.desc {level : Nat} {r : Root} {N : List GN} {rest : List (List GN)} (h : St K W level r (N :: rest)) :
    Desc (flat N) ∧ ∀ e ∈ flat N, e.1 < W ∧ e.2 ≠ 0 := by
  obtain ⟨h1, h2⟩ := Link.falls h.chain.1 (spans_falls h.chain.2.2.2.2)
  refine ⟨flat_desc_of h1 h.chain.2.1, fun e he => ?_⟩
  obtain ⟨m, hm, he⟩ := List.mem_flatMap.mp he
  have ok := h.chain.2.1 m hm
  have := ok.key e he
  have := h2 m hm
  exact ⟨by omega, ok.val e he⟩

/-! The state of a tree between calls -/

inductive Inv (H K W : Nat) (r : Root) : List (Nat × Nat) → Prop
  | empty : r.node = 0 → r.height = 0 → (∀ q, r.heap q = none) → Inv H K W r []
  | tree (N : List GN) (rest : List (List GN)) : St K W 1 r (N :: rest) → Bal H (shape (N :: rest)) → (∀ q, r.heap q ≠ none → q ∈ ptrs (N :: rest)) →
      Inv H K W r (flat N)

theorem Inv.desc {r : Root} {m : List (Nat × Nat)} (h : Inv H K W r m) : Desc m ∧ ∀ e ∈ m, e.1 < W ∧ e.2 ≠ 0 := by
  cases h with
  | empty => simp [Desc]
  | tree N rest h => exact h.desc

theorem inv_init : Inv H K W init [] := .empty rfl rfl fun _ => rfl

/-- A heap with lowered keys. -/
theorem owned_search {r : Root} {h' : Heap} {N N' : List GN} {rest rest' : List (List GN)} (ho : ∀ q, r.heap q ≠ none → q ∈ ptrs (N :: rest))
    (hN : N'.map GN.p = N.map GN.p) (hs : shape rest' = shape rest) (hh : ∀ q, q ∉ ptrs rest → h' q = r.heap q) : ∀ q, h' q ≠ none → q ∈ ptrs (N' :: rest') := by
  intro q hq
  rw [ptrs_cons, hN, show ptrs rest' = ptrs rest from ptrs_of_shape hs]
  by_cases hr : q ∈ ptrs rest
  · exact List.mem_append_right _ hr
  · rw [hh q hr] at hq
    have := ho q hq
    rwa [ptrs_cons] at this

/-- The search for the leaf of a key. -/
theorem find_leaf {r : Root} {N : List GN} {rest : List (List GN)} {k : Nat} (h : St K W 1 r (N :: rest)) (hbal : Bal H (shape (N :: rest)))
    (ho : ∀ q, r.heap q ≠ none → q ∈ ptrs (N :: rest)) (hk : k < W) :
    ∃ h' rest' pre n post A c B, findParent r k 1 = some ({ r with heap := h' }, n.p) ∧ findParent { r with heap := h' } k 1 = some ({ r with heap := h' }, n.p) ∧
      St K W 1 { r with heap := h' } ((pre ++ n :: post) :: rest') ∧ Foc W r.node k rest' A c B ∧ Link A pre ∧ Link B post ∧
      n.p = c.p ∧ n.lo ≤ k ∧ k < n.hi ∧
      Bal H (shape ((pre ++ n :: post) :: rest')) ∧ (∀ q, h' q ≠ none → q ∈ ptrs ((pre ++ n :: post) :: rest')) ∧ flat (pre ++ n :: post) = flat N ∧
      rest'.length = rest.length ∧ (k ∈ (flat N).map Prod.fst → h' = r.heap) := by
  obtain ⟨h', rest', pre, n, n', post, A, c, B, f1, f2, rfl, rfl, s1, g1, g2, g3, g4, g5, g6, g7⟩ := findParent_ok (by omega) h hk
  have hr := g1.range
  have hp : (pre ++ (⟨n.p, c.lo, c.hi, n.es⟩ : GN) :: post).map sh = (pre ++ n :: post).map sh := by simp [sh]
  refine ⟨h', rest', pre, ⟨n.p, c.lo, c.hi, n.es⟩, post, A, c, B, f1, f2, s1, g1, g2, g3, g4, hr.1, hr.2, ?_, owned_search ho ?_ g5 g6, by simp [flat_append, flat_cons], ?_, ?_⟩
  · rw [show shape ((pre ++ (⟨n.p, c.lo, c.hi, n.es⟩ : GN) :: post) :: rest') = shape ((pre ++ n :: post) :: rest) from by
      simp only [shape, List.map_cons] at g5 ⊢
      rw [g5, hp]]
    exact hbal
  · simp
  · have := congrArg List.length g5
    simpa [shape] using this
  · intro hin
    obtain ⟨e, he, hek⟩ := List.mem_map.mp hin
    obtain ⟨m, hm, he⟩ := List.mem_flatMap.mp he
    obtain ⟨pre2, post2, hsp⟩ := List.append_of_mem hm
    rw [hsp] at h
    have ok := (h.chain.2.1 m (by simp)).key e he
    obtain ⟨A2, c2, B2, q1, _⟩ := locate (k := k) h.chain (by omega) (by omega)
    have := findParent_foc (by omega) h q1
    rw [this] at f1
    simp only [Option.some.injEq, Prod.mk.injEq] at f1
    exact (congrArg Root.heap f1.1).symm

/-! Insertion -/

/-- Insertion into a tree that has a root. -/
theorem insert_tree (hKH : K = 2 * H) (hH : 2 ≤ H) {r : Root} {N : List GN} {rest : List (List GN)} (h : St K W 1 r (N :: rest)) (hbal : Bal H (shape (N :: rest)))
    (ho : ∀ q, r.heap q ≠ none → q ∈ ptrs (N :: rest)) {k v fuel : Nat} (hk : k < W) (hv : v ≠ 0) (hf : rest.length + 3 ≤ fuel) :
    (∃ old, (k, old) ∈ flat N ∧ ∃ r', insertLevel K mem ops fuel r 1 (.mem k) v = some (r', match ops.clash with | some f => f old v | none => -114) ∧ Inv H K W r' (flat N)) ∨
    (k ∉ (flat N).map Prod.fst ∧ ∃ r', insertLevel K mem ops fuel r 1 (.mem k) v = some (r', -12) ∧ Inv H K W r' (flat N) ∧ ∃ c, r.calls ≤ c ∧ c < r'.calls ∧ mem c = false) ∨
    (k ∉ (flat N).map Prod.fst ∧ ∃ r' a b, insertLevel K mem ops fuel r 1 (.mem k) v = some (r', 0) ∧ flat N = a ++ b ∧ Inv H K W r' (a ++ (k, v) :: b)) := by
  obtain ⟨fuel, rfl⟩ : ∃ f, fuel = f + 1 := ⟨fuel - 1, by omega⟩
  obtain ⟨h', rest', pre, n, post, A, c, B, f1, f2, s1, g1, g2, g3, g4, hlo, hhi, b1, o1, hfl, hlen, -⟩ := find_leaf h hbal ho hk
  let r1 : Root := { r with heap := h' }
  have hht := h.height
  simp only [List.length_cons] at hht
  rw [insertLevel_search (r := r) (r1 := r1) (k := k) (p := n.p) (by omega) rfl rfl rfl f1 f2, ← hfl]
  obtain ⟨a, b, es, ha, hb⟩ := exists_split k n.es
  have okn := s1.chain.2.1 n (by simp)
  have habs : (∀ e, b.head? = some e → e.1 < k) → k ∉ (flat (pre ++ n :: post)).map Prod.fst := by
    intro hb' hin
    obtain ⟨x, hx, hxk⟩ := List.mem_map.mp hin
    have hd := s1.desc.1
    rw [flat_append, flat_cons, es] at hx
    have hdb := okn.desc
    rw [es] at hdb
    have hb2 := below_of_head hdb.right hb'
    have hfalls := Link.falls s1.chain.1 (spans_falls s1.chain.2.2.2.2)
    have hp := List.pairwise_append.mp hfalls.1
    rcases List.mem_append.mp hx with hx | hx
    · obtain ⟨m, hm, hx⟩ := List.mem_flatMap.mp hx
      have := hp.2.2 m hm n (by simp)
      have := ((s1.chain.2.1 m (by simp [hm])).key x hx).1
      omega
    · rcases List.mem_append.mp hx with hx | hx
      · rcases List.mem_append.mp hx with hx | hx
        · have := ha x hx; omega
        · have := hb2 x hx; omega
      · obtain ⟨m, hm, hx⟩ := List.mem_flatMap.mp hx
        have := (List.pairwise_cons.mp hp.2.1).1 m hm
        have := ((s1.chain.2.1 m (by simp [hm])).key x hx).2
        omega
  by_cases hc : ∃ old b', b = (k, old) :: b'
  · obtain ⟨old, b', rfl⟩ := hc
    refine Or.inl ⟨old, ?_, r1, insert_clash (by omega) s1 es rfl, .tree _ _ s1 b1 o1⟩
    rw [flat_append, flat_cons, es]; simp
  · have hb' : ∀ e, b.head? = some e → e.1 < k := by
      intro e he
      have := hb e he
      cases b with
      | nil => simp at he
      | cons x b =>
        simp at he; subst he
        refine Nat.lt_of_le_of_ne this fun e => hc ⟨x.2, b, ?_⟩
        rw [← e]
    right
    obtain ⟨r', ret, e1, hres⟩ := insert_node hKH hH (up_all hKH hH rest') (mem := mem) (ops := ops) (fuel := fuel + 1) (key := .mem k) (v := v) (by omega) (by rw [hlen]; omega) s1 hlo hhi es ha hb' hv
      (fun _ _ => rfl) b1
    rcases hres with ⟨rfl, q1, q2, q3, q4, q5⟩ | ⟨rfl, L', R', s2, x2, _, fl2, b2, _⟩
    · refine Or.inl ⟨habs hb', r', e1, .tree _ _ ?_ b1 (by rw [q1]; exact o1), q5⟩
      exact ⟨by rw [q3]; exact s1.height, by rw [q2]; exact s1.chain, by rw [q1]; exact s1.hold, s1.nodup, fun q hq => by have := s1.low q hq; exact ⟨this.1, Nat.le_trans this.2 q4⟩,
        fun q hq => by rw [q1]; exact s1.fresh q (by show r.calls < q; have : r.calls ≤ r'.calls := q4; omega)⟩
    · refine Or.inr ⟨habs hb', r', flat pre ++ a, b ++ flat post, e1, by rw [flat_append, flat_cons, es]; simp, ?_⟩
      have : flat L' = flat pre ++ a ++ (k, v) :: (b ++ flat post) := by rw [fl2]; simp
      rw [← this]
      refine .tree _ _ s2 b2 fun q hq => ?_
      apply Classical.byContradiction
      intro hn
      rw [x2.same q hn] at hq
      exact hn (x2.old q (o1 q hq))

theorem insert_ok (hKH : K = 2 * H) (hH : 2 ≤ H) {r : Root} {m : List (Nat × Nat)} (h : Inv H K W r m) {k v : Nat} (hk : k < W) (hv : v ≠ 0) :
    (∃ old, (k, old) ∈ m ∧ ∃ r', insert K mem ops r k v = some (r', match ops.clash with | some f => f old v | none => -114) ∧ Inv H K W r' m) ∨
    (k ∉ m.map Prod.fst ∧ ∃ r', insert K mem ops r k v = some (r', -12) ∧ Inv H K W r' m ∧ ∃ c, r.calls ≤ c ∧ c < r'.calls ∧ mem c = false) ∨
    (k ∉ m.map Prod.fst ∧ ∃ r' a b, insert K mem ops r k v = some (r', 0) ∧ m = a ++ b ∧ Inv H K W r' (a ++ (k, v) :: b)) := by
  unfold insert
  rw [if_neg hv]
  cases h with
  | tree N rest h hbal ho =>
    have hht := h.height
    simp only [List.length_cons] at hht
    exact insert_tree hKH hH h hbal ho hk hv (by omega)
  | empty hn hh hq =>
    by_cases hm : mem r.calls
    · let r1 : Root := { r with heap := put r.heap (r.calls + 1) (some (List.replicate K (0, 0))), node := r.calls + 1, height := r.height + 1, calls := r.calls + 1 }
      have hex : extend K mem r = some (r1, true) := by
        unfold extend alloc
        rw [if_pos hm]
        try dsimp only
        rw [if_pos hn]
      rw [insertLevel_extend (by omega) hex (by show 1 ≤ r.height + 1; omega)]
      let g : GN := ⟨r.calls + 1, 0, W, []⟩
      have s1 : St K W 1 r1 [[g]] := by
        refine ⟨by show r.height + 1 + 1 = _; simp [hh], ⟨⟨rfl, Nat.le_refl _, Nat.le_refl _, trivial⟩, ?_, by simp, by simp, trivial⟩, ?_, by simp [ptrs], by simp [ptrs, g, r1], ?_⟩
        · intro n hn
          simp only [List.mem_singleton] at hn
          subst hn
          exact ⟨by simp [g], by simp [g, Desc], by simp [g], by simp [g]⟩
        · intro N hN n hn
          simp only [List.mem_singleton] at hN
          subst hN
          simp only [List.mem_singleton] at hn
          subst hn
          exact put_self _ _ _
        · intro q hq'
          have : r.calls + 1 < q := hq'
          show put _ _ _ q = none
          rw [put_ne _ (by omega)]
          exact hq q
      have := insert_tree hKH hH (mem := mem) (ops := ops) s1 trivial (by
        intro q hq'
        have : q = r.calls + 1 := by
          apply Classical.byContradiction; intro hne
          exact hq' ((put_ne _ hne).trans (hq q))
        simp [ptrs, g, this]) hk hv (show [].length + 3 ≤ r.height + 3 from by simp)
      rw [show flat [g] = [] from rfl] at this
      rcases this with h1 | ⟨h1, r', h2, h3, c, h4, h5, h6⟩ | h1
      · exact Or.inl h1
      · exact Or.inr (Or.inl ⟨h1, r', h2, h3, c, by have : r.calls + 1 ≤ c := h4; omega, h5, h6⟩)
      · exact Or.inr (Or.inr h1)
    · refine Or.inr (Or.inl ⟨by simp, { r with calls := r.calls + 1 }, ?_, .empty hn hh hq, r.calls, Nat.le_refl _, by show r.calls < r.calls + 1; omega, by simpa using hm⟩)
      have hex : extend K mem r = some ({ r with calls := r.calls + 1 }, false) := by
        unfold extend alloc
        rw [if_neg hm]
      rw [insertLevel, if_pos (by omega), hex, Option.bind_some]
      rfl

/-! Removal -/

/-- The function of the user does not let a value go. -/
def Ops.refuses (ops : Ops) (v : Nat) : Prop := ∃ f, ops.remove = some f ∧ f v ≠ 0

theorem flat_split {pre post : List GN} {n : GN} {a b : List (Nat × Nat)} {e : Nat × Nat} (he : n.es = a ++ e :: b) :
    flat (pre ++ n :: post) = (flat pre ++ a) ++ e :: (b ++ flat post) := by
  rw [flat_append, flat_cons, he]; simp

/-- In the leaf of a key that is in the tree. -/
theorem leaf_present {r : Root} {pre post : List GN} {n : GN} {rest : List (List GN)} {k v : Nat} (h : St K W 1 r ((pre ++ n :: post) :: rest))
    (hlo : n.lo ≤ k) (hhi : k < n.hi) (hin : (k, v) ∈ flat (pre ++ n :: post)) : ∃ a b, n.es = a ++ (k, v) :: b := by
  have hfalls := Link.falls h.chain.1 (spans_falls h.chain.2.2.2.2)
  have hp := List.pairwise_append.mp hfalls.1
  rw [flat_append, flat_cons] at hin
  refine List.append_of_mem ?_
  rcases List.mem_append.mp hin with hx | hx
  · obtain ⟨m, hm, hx⟩ := List.mem_flatMap.mp hx
    have := hp.2.2 m hm n (by simp)
    have := ((h.chain.2.1 m (by simp [hm])).key _ hx).1
    simp only at this
    omega
  · rcases List.mem_append.mp hx with hx | hx
    · exact hx
    · obtain ⟨m, hm, hx⟩ := List.mem_flatMap.mp hx
      have := (List.pairwise_cons.mp hp.2.1).1 m hm
      have := ((h.chain.2.1 m (by simp [hm])).key _ hx).2
      simp only at this
      omega

/-- The leaf of a key that the tree has, without a search that changes anything. -/
theorem leaf_of {r : Root} {N : List GN} {rest : List (List GN)} {k v : Nat} (h : St K W 1 r (N :: rest)) (hin : (k, v) ∈ flat N) :
    ∃ pre n post a b A c B, N = pre ++ n :: post ∧ n.es = a ++ (k, v) :: b ∧ (∀ x ∈ a, k < x.1) ∧ n.lo ≤ k ∧ k < n.hi ∧
      Foc W r.node k rest A c B ∧ Link A pre ∧ Link B post ∧ n.p = c.p := by
  obtain ⟨n, hn, he⟩ := List.mem_flatMap.mp hin
  obtain ⟨pre, post, rfl⟩ := List.append_of_mem hn
  obtain ⟨a, b, hab⟩ := List.append_of_mem he
  have ok := h.chain.2.1 n (by simp)
  have hk := ok.key _ he
  have hd := ok.desc
  rw [hab] at hd
  obtain ⟨A, c, B, f1, f2, f3, f4, _⟩ := locate (k := k) h.chain hk.1 hk.2
  exact ⟨pre, n, post, a, b, A, c, B, rfl, hab, fun x hx => hd.cross x hx (k, v) (by simp), hk.1, hk.2, f1, f2, f3, f4⟩

theorem remove_present (hKH : K = 2 * H) (hH : 2 ≤ H) {r : Root} {m : List (Nat × Nat)} (h : Inv H K W r m) {k v : Nat} (hin : (k, v) ∈ m) :
    (∃ f, ops.remove = some f ∧ f v ≠ 0 ∧ remove ops r k = some (r, f v)) ∨
    (¬ ops.refuses v ∧ ∃ r' a b, remove ops r k = some (r', v) ∧ m = a ++ (k, v) :: b ∧ Inv H K W r' (a ++ b) ∧ r'.calls = r.calls) := by
  cases h with
  | empty => simp at hin
  | tree N rest h hbal ho =>
  obtain ⟨pre, n, post, a, b, A, c, B, rfl, es, ha, hlo, hhi, f1, f2, f3, f4⟩ := leaf_of h hin
  have hht := h.height
  simp only [List.length_cons] at hht
  have okn := h.chain.2.1 n (by simp)
  have hq := h.hold.head n (by simp)
  rw [es] at hq
  have hfp := findParent_foc (by omega) h f1
  rw [← f4] at hfp
  have hred : remove ops r k = match ops.remove.map (· v) with
        | some (c + 1) => some (r, c + 1)
        | _ => (removeSlot (removeLevel ops r.height) r 1 (.mem k) n.p (mk K (a ++ (k, v) :: b)) a.length (a ++ (k, v) :: b).length).map fun r => (r, v) := by
    unfold remove
    rw [if_neg (by omega), removeLevel, if_neg (by omega), Key.read, Option.bind_some, hfp, Option.bind_some]
    try dsimp only
    rw [hq, Option.bind_some]
    try dsimp only
    rw [if_pos rfl, findIndex_mk K k ha (by simp), fillIndex_mk (fun x hx => okn.val x (by rw [es]; exact hx)) (by simp), keyAt_mk rfl, Option.bind_some, if_neg (by simp),
      valAt_mk rfl, Option.bind_some]
    rfl
  have hgo : ∃ r' a' b', (removeSlot (removeLevel ops r.height) r 1 (.mem k) n.p (mk K (a ++ (k, v) :: b)) a.length (a ++ (k, v) :: b).length).map (fun r => (r, v)) = some (r', v) ∧
      flat (pre ++ n :: post) = a' ++ (k, v) :: b' ∧ Inv H K W r' (a' ++ b') ∧ r'.calls = r.calls := by
    obtain ⟨r', lv', e1, e2⟩ := slot_ok (ops := ops) (fuel := r.height) (key := .mem k) hKH hH (by omega)
      (fun M R hh => down_all hKH hH R r.height (by rw [hh] at hht; simp at hht; omega)) h es hlo hhi (Or.inl rfl) hbal
    refine ⟨r', flat pre ++ a, b ++ flat post, by rw [e1]; rfl, flat_split es, ?_, e2.ext.calls⟩
    cases lv' with
    | nil => exact absurd rfl (e2.top rfl).2.2.1
    | cons L R =>
      have := e2.flat L R rfl
      rw [show flat pre ++ a ++ (b ++ flat post) = flat L from by rw [this]; simp]
      refine .tree L R e2.st e2.bal fun q hq => ?_
      apply Classical.byContradiction
      intro hn
      by_cases hp : q ∈ ptrs ((pre ++ n :: post) :: rest)
      · exact hq (e2.ext.gone q hp hn)
      · rw [e2.ext.same q hp] at hq
        exact hp (ho q hq)
  rw [hred]
  cases hr : ops.remove with
  | none => exact Or.inr ⟨(by rintro ⟨f, hf, _⟩; rw [hr] at hf; cases hf), hgo⟩
  | some f =>
    cases hf : f v with
    | zero =>
      right
      refine ⟨(by rintro ⟨g, hg, hg'⟩; rw [hr] at hg; cases hg; exact hg' hf), ?_⟩
      simp only [Option.map_some, hf]
      exact hgo
    | succ c =>
      left
      refine ⟨f, rfl, by omega, ?_⟩
      simp only [Option.map_some, hf]

theorem remove_absent {r : Root} {m : List (Nat × Nat)} (h : Inv H K W r m) {k : Nat} (hk : k < W) (hK : 0 < K) (hk0 : k ≠ 0) (hout : k ∉ m.map Prod.fst) (hv : ∀ e ∈ m, e.2 ≠ k) :
    ∃ r', remove ops r k = some (r', 0) ∧ Inv H K W r' m ∧ r'.calls = r.calls := by
  cases h with
  | empty hn hh hq => exact ⟨r, by unfold remove; rw [if_pos hh], .empty hn hh hq, rfl⟩
  | tree N rest h hbal ho =>
  obtain ⟨h', rest', pre, n, post, A, c, B, f1, f2, s1, g1, g2, g3, g4, hlo, hhi, b1, o1, hfl, hlen, -⟩ := find_leaf h hbal ho hk
  have hht := h.height
  simp only [List.length_cons] at hht
  obtain ⟨a, b, es, ha, hb⟩ := exists_split k n.es
  have okn := s1.chain.2.1 n (by simp)
  have hq := s1.hold.head n (by simp)
  rw [es] at hq
  refine ⟨{ r with heap := h' }, ?_, by rw [← hfl]; exact .tree _ _ s1 b1 o1, rfl⟩
  unfold remove
  rw [if_neg (by omega), removeLevel, if_neg (by omega), Key.read, Option.bind_some, f1, Option.bind_some]
  try dsimp only at hq ⊢
  rw [hq, Option.bind_some]
  try dsimp only
  have hmem : ∀ x ∈ n.es, x ∈ flat N := fun x hx => by rw [← hfl, flat_append, flat_cons]; simp [hx]
  have hkey : ∃ x, keyAt (mk K (a ++ b)) a.length = some x ∧ x ≠ k := by
    cases b with
    | cons e b =>
      refine ⟨e.1, keyAt_mk rfl, ?_⟩
      rintro rfl
      exact hout (List.mem_map.mpr ⟨e, hmem e (by rw [es]; simp), rfl⟩)
    | nil =>
      rw [List.append_nil] at es ⊢
      have hl := okn.len
      rw [es] at hl
      unfold keyAt
      rw [mk_length hl]
      rcases Nat.lt_or_ge a.length K with h1 | h1
      · rw [if_pos h1, mk_end h1]
        exact ⟨0, rfl, hk0.symm⟩
      · rw [if_neg (by omega), show a.length - K = 0 from by omega]
        cases a with
        | nil => simp at h1; omega
        | cons e a =>
          refine ⟨e.2, ?_, hv e (hmem e (by rw [es]; simp))⟩
          rw [show (mk K (e :: a))[0]? = some e from mk_at (a := []) (b := a) rfl]
          rfl
  obtain ⟨x, hx, hxk⟩ := hkey
  rw [if_pos rfl, findIndex_mk K k ha hb, hx, Option.bind_some, if_pos hxk]

end Bfdev.Btree

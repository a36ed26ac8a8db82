import Verif.Btree.Tree
/-! Lookup, update and iteration. -/
namespace Bfdev.Btree

variable {H K W : Nat} {ops : Ops} {mem : Nat → Bool}

/-! Lookup -/

theorem keyIndex_present {k v : Nat} : ∀ {a b : List (Nat × Nat)}, (∀ x ∈ a, k < x.1) → keyIndex k (a ++ (k, v) :: b) = some a.length
  | [], b, _ => by simp [keyIndex]
  | e :: a, b, h => by
    have := h e (by simp)
    rw [List.cons_append, keyIndex, if_neg (by omega), if_neg (by omega), keyIndex_present fun x hx => h x (by simp [hx])]
    rfl

theorem keyIndex_pad {k : Nat} (h : k ≠ 0) : ∀ n, keyIndex k (List.replicate n (0, 0)) = none
  | 0 => rfl
  | n + 1 => by rw [List.replicate_succ, keyIndex, if_pos (by show 0 < k; omega)]

theorem keyIndex_absent {k : Nat} (h0 : k ≠ 0) (n : Nat) : ∀ {es : List (Nat × Nat)}, k ∉ es.map Prod.fst → keyIndex k (es ++ List.replicate n (0, 0)) = none
  | [], _ => by rw [List.nil_append, keyIndex_pad h0]
  | e :: es, h => by
    simp only [List.map_cons, List.mem_cons, not_or] at h
    rw [List.cons_append, keyIndex]
    split
    · rfl
    · rw [if_neg fun he => h.1 he.symm, keyIndex_absent h0 n h.2]; rfl

theorem keyIndex_zero (n : Nat) : ∀ {es : List (Nat × Nat)}, 0 ∉ es.map Prod.fst →
    keyIndex 0 (es ++ List.replicate n (0, 0)) = if n = 0 then none else some es.length
  | [], _ => by
    cases n with
    | zero => rfl
    | succ n => rw [List.nil_append, List.replicate_succ, keyIndex, if_neg (by simp), if_pos rfl, if_neg (by simp)]; rfl
  | e :: es, h => by
    simp only [List.map_cons, List.mem_cons, not_or] at h
    rw [List.cons_append, keyIndex, if_neg (by omega), if_neg fun he => h.1 he.symm, keyIndex_zero n h.2]
    split <;> rfl

theorem lookupDown_snoc {k : Nat} {h : Heap} : ∀ (n p : Nat), p ≠ 0 → lookupDown k h (n + 1) p =
    (lookupDown k h n p).bind fun q => if q = 0 then some 0 else lookupDown k h 1 q
  | 0, p, hp => by rw [show lookupDown k h 0 p = some p from rfl, Option.bind_some, if_neg hp]
  | n + 1, p, hp => by
    rw [lookupDown, lookupDown]
    cases hb : h p with
    | none => rfl
    | some b =>
      rw [Option.bind_some, Option.bind_some]
      dsimp only
      split
      · rw [Option.bind_some, if_pos rfl]
      · cases hv : valAt b (findIndex k b) with
        | none => rfl
        | some v =>
          rw [Option.bind_some, Option.bind_some]
          split
          · rw [Option.bind_some, if_pos rfl]
          · next hz => rw [lookupDown_snoc n v hz]

theorem root_mem {root : Nat} : ∀ {lv : List (List GN)} {leaf : Bool}, Chain K W root leaf lv → lv ≠ [] → root ∈ ptrs lv
  | [N], _, h, _ => by
    obtain ⟨n, N', rfl, h1, _⟩ := Link.cons_left h.1
    rw [ptrs_cons]; simp at h1 ⊢; exact Or.inl h1.symm
  | N :: M :: rest, _, h, _ => by
    rw [ptrs_cons]
    exact List.mem_append_right _ (root_mem h.2.2.2.2 (by simp))

theorem St.root {level : Nat} {r : Root} {lv : List (List GN)} (h : St K W level r lv) (hne : lv ≠ []) : r.node ≠ 0 := by
  have := h.low _ (root_mem h.chain hne); omega

theorem lookup_foc {root k : Nat} {leaf : Bool} {h : Heap} {lv A c B} (hf : Foc W root k lv A c B) (hc : Chain K W root leaf lv) (hh : Hold K h lv) (h0 : root ≠ 0) :
    lookupDown k h lv.length root = some c.p ∧ c.p ≠ 0 := by
  induction hf generalizing leaf with
  | top => exact ⟨rfl, h0⟩
  | @down rest A c B pre n post a e b hf hA hB hp h1 h2 h3 h4 he ha hek ih =>
    have hn : n ∈ pre ++ n :: post := by simp
    have ok := hc.2.1 n hn
    have hq := hh.head n hn
    rw [he, hp] at hq
    obtain ⟨i1, i2⟩ := ih hc.2.2.2.2 hh.tail
    have hv := ok.val e (by rw [he]; simp)
    refine ⟨?_, hv⟩
    have hl := ok.len
    rw [he] at hl
    rw [List.length_cons, lookupDown_snoc _ _ h0, i1, Option.bind_some, if_neg i2, lookupDown, hq, Option.bind_some]
    dsimp only
    rw [findIndex_mk K k ha (by simpa using hek), mk_length hl, if_neg (by simp at hl; omega), valAt_mk rfl, Option.bind_some, if_neg hv, lookupDown]

theorem mem_kids : ∀ {hi : Nat} {es : List (Nat × Nat)} {e : Nat × Nat}, e ∈ es → ∃ c ∈ kids hi es, c.p = e.2
  | _, x :: es, e, h => by
    rcases List.mem_cons.mp h with rfl | h
    · exact ⟨_, by rw [kids]; exact List.mem_cons_self, rfl⟩
    · obtain ⟨c, h1, h2⟩ := mem_kids (hi := x.1) h
      exact ⟨c, by rw [kids]; exact List.mem_cons_of_mem _ h1, h2⟩

theorem Link.node : ∀ {S : List Sp} {N : List GN} {c : Sp}, Link S N → c ∈ S → ∃ n ∈ N, n.p = c.p
  | d :: S, [], c, h, _ => absurd h (by simp [Link])
  | d :: S, n :: N, c, h, hc => by
    rcases List.mem_cons.mp hc with rfl | hc
    · exact ⟨n, by simp, h.1⟩
    · obtain ⟨m, h1, h2⟩ := Link.node h.2.2.2 hc
      exact ⟨m, by simp [h1], h2⟩

theorem lookup_any {root k : Nat} {h : Heap} (h0 : root ≠ 0) : ∀ {lv : List (List GN)} {leaf : Bool}, Chain K W root leaf lv → Hold K h lv →
    ∃ q, lookupDown k h lv.length root = some q ∧ (q = 0 ∨ ∃ c ∈ spans root W lv, c.p = q)
  | [], _, _, _ => ⟨root, rfl, Or.inr ⟨_, by rw [spans]; exact List.mem_singleton.mpr rfl, rfl⟩⟩
  | N :: rest, _, hc, hh => by
    obtain ⟨q, e1, e2⟩ := lookup_any (k := k) h0 hc.2.2.2.2 hh.tail
    rw [List.length_cons, lookupDown_snoc _ _ h0, e1, Option.bind_some]
    by_cases hq : q = 0
    · exact ⟨0, by rw [if_pos hq], Or.inl rfl⟩
    · rw [if_neg hq]
      obtain ⟨c, hc1, rfl⟩ := e2.resolve_left hq
      obtain ⟨n, hn, hp⟩ := hc.1.node hc1
      have ok := hc.2.1 n hn
      have hb := hh.head n hn
      obtain ⟨a, b, es, ha, hb'⟩ := exists_split k n.es
      have hl := ok.len
      rw [es] at hl hb
      rw [lookupDown, ← hp, hb, Option.bind_some]
      dsimp only
      rw [findIndex_mk K k ha hb', mk_length hl]
      cases b with
      | nil =>
        rw [List.append_nil] at hl ⊢
        by_cases hf : a.length = K
        · exact ⟨0, by rw [if_pos hf], Or.inl rfl⟩
        · rw [if_neg hf, valAt_end (by omega), Option.bind_some, if_pos rfl]
          exact ⟨0, rfl, Or.inl rfl⟩
      | cons e b =>
        have hv := ok.val e (by rw [es]; simp)
        rw [if_neg (by simp at hl; omega), valAt_mk rfl, Option.bind_some, if_neg hv, lookupDown]
        refine ⟨e.2, rfl, Or.inr ?_⟩
        obtain ⟨c', h1, h2⟩ := mem_kids (hi := n.hi) (e := e) (es := n.es) (by rw [es]; simp)
        exact ⟨c', List.mem_flatMap.mpr ⟨n, hn, h1⟩, h2⟩

/-- The leaf that `bnode_lookup` gives. -/
theorem lookupNode_present {r : Root} {N : List GN} {rest : List (List GN)} {k v : Nat} (h : St K W 1 r (N :: rest)) (hin : (k, v) ∈ flat N) :
    ∃ pre n post a b, N = pre ++ n :: post ∧ n.es = a ++ (k, v) :: b ∧ lookupNode r k = some n.p ∧ n.p ≠ 0 ∧
      r.heap n.p = some (mk K (a ++ (k, v) :: b)) ∧ keyIndex k (mk K (a ++ (k, v) :: b)) = some a.length := by
  obtain ⟨pre, n, post, a, b, A, c, B, rfl, es, ha, hlo, hhi, f1, f2, f3, f4⟩ := leaf_of h hin
  have hht := h.height
  simp only [List.length_cons] at hht
  have ht := h.tail (by omega)
  obtain ⟨l1, l2⟩ := lookup_foc f1 ht.chain ht.hold (h.root (by simp))
  refine ⟨pre, n, post, a, b, rfl, es, ?_, by rw [f4]; exact l2, by rw [← es]; exact h.hold.head n (by simp), ?_⟩
  · unfold lookupNode
    rw [if_neg (by omega), show r.height - 1 = rest.length from by omega, l1, f4]
  · unfold mk
    rw [List.append_assoc, List.cons_append, keyIndex_present ha]

theorem lookupNode_any {r : Root} {N : List GN} {rest : List (List GN)} {k : Nat} (h : St K W 1 r (N :: rest)) :
    ∃ q, lookupNode r k = some q ∧ (q = 0 ∨ ∃ n ∈ N, n.p = q ∧ r.heap q = some (mk K n.es)) := by
  have hht := h.height
  simp only [List.length_cons] at hht
  have ht := h.tail (by omega)
  obtain ⟨q, l1, l2⟩ := lookup_any (k := k) (h.root (by simp)) ht.chain ht.hold
  refine ⟨q, ?_, ?_⟩
  · unfold lookupNode
    rw [if_neg (by omega), show r.height - 1 = rest.length from by omega, l1]
  · rcases l2 with l2 | ⟨c, hc, rfl⟩
    · exact Or.inl l2
    · obtain ⟨n, hn, hp⟩ := h.chain.1.node hc
      exact Or.inr ⟨n, hn, hp, by rw [← hp]; exact h.hold.head n hn⟩

theorem lookup_present {r : Root} {m : List (Nat × Nat)} (h : Inv H K W r m) {k v : Nat} (hin : (k, v) ∈ m) : lookup r k = some v := by
  cases h with
  | empty => simp at hin
  | tree N rest h hbal ho =>
    obtain ⟨pre, n, post, a, b, _, _, e3, e4, e5, e6⟩ := lookupNode_present h hin
    unfold lookup
    rw [e3, Option.bind_some, if_neg e4, e5, Option.bind_some, e6]
    exact valAt_mk rfl

theorem lookup_absent {r : Root} {m : List (Nat × Nat)} (h : Inv H K W r m) {k : Nat} (hout : k ∉ m.map Prod.fst) : lookup r k = some 0 := by
  cases h with
  | empty hn hh _ =>
    unfold lookup lookupNode
    rw [if_pos hh, Option.bind_some, if_pos rfl]
  | tree N rest h hbal ho =>
    obtain ⟨q, e1, e2⟩ := lookupNode_any (k := k) h
    unfold lookup
    rw [e1, Option.bind_some]
    rcases e2 with e2 | ⟨n, hn, hp, hb⟩
    · rw [if_pos e2]
    · rw [if_neg (by have := h.low q (by rw [← hp]; exact mem_ptrs List.mem_cons_self hn); omega), hb, Option.bind_some]
      have hout' : k ∉ n.es.map Prod.fst := fun hh => by
        obtain ⟨x, hx, rfl⟩ := List.mem_map.mp hh
        exact hout (List.mem_map.mpr ⟨x, List.mem_flatMap.mpr ⟨n, hn, hx⟩, rfl⟩)
      by_cases h0 : k = 0
      · subst h0
        unfold mk
        rw [keyIndex_zero _ hout']
        by_cases hz : K - n.es.length = 0
        · rw [if_pos hz]
        · rw [if_neg hz]
          exact valAt_end (by omega)
      · unfold mk
        rw [keyIndex_absent h0 _ hout']

/-! Update -/

theorem update_present {r : Root} {m : List (Nat × Nat)} (h : Inv H K W r m) {k old v : Nat} (hin : (k, old) ∈ m) (hv : v ≠ 0) :
    ∃ r' a b, update r k v = some (r', 0) ∧ m = a ++ (k, old) :: b ∧ Inv H K W r' (a ++ (k, v) :: b) ∧ r'.calls = r.calls := by
  cases h with
  | empty => simp at hin
  | tree N rest h hbal ho =>
    obtain ⟨pre, n, post, a, b, rfl, es, e3, e4, e5, e6⟩ := lookupNode_present h hin
    have ok := h.chain.2.1 n (by simp)
    let n1 : GN := ⟨n.p, n.lo, n.hi, a ++ (k, v) :: b⟩
    have ok1 : n1.Ok K := by
      have hd := ok.desc
      rw [es] at hd
      refine ⟨by have := ok.len; rw [es] at this; simpa [n1] using this, ?_, fun x hx => ?_, fun x hx => ?_⟩
      · refine List.pairwise_append.mpr ⟨hd.left, List.pairwise_cons.mpr ⟨(List.pairwise_cons.mp hd.right).1, (List.pairwise_cons.mp hd.right).2⟩, fun x hx y hy => ?_⟩
        rcases List.mem_cons.mp hy with rfl | hy
        · exact hd.cross x hx (k, old) (by simp)
        · exact hd.cross x hx y (by simp [hy])
      · rcases List.mem_append.mp hx with hx | hx
        · exact ok.key x (by rw [es]; simp [hx])
        · rcases List.mem_cons.mp hx with rfl | hx
          · exact ok.key (k, old) (by rw [es]; simp)
          · exact ok.key x (by rw [es]; simp [hx])
      · rcases List.mem_append.mp hx with hx | hx
        · exact ok.val x (by rw [es]; simp [hx])
        · rcases List.mem_cons.mp hx with rfl | hx
          · exact hv
          · exact ok.val x (by rw [es]; simp [hx])
    have s1 := st_store (n' := n1) h rfl rfl rfl ok1 (by simp [n1]) (by simp)
    refine ⟨{ r with heap := put r.heap n.p (some (mk K n1.es)) }, flat pre ++ a, b ++ flat post, ?_, flat_split es, ?_, rfl⟩
    · unfold update
      rw [e3, Option.bind_some, if_neg e4, e5, Option.bind_some, e6]
      try dsimp only
      rw [setVal_mk rfl, Option.map_some]
    · rw [show flat pre ++ a ++ (k, v) :: (b ++ flat post) = flat (pre ++ n1 :: post) from (flat_split (n := n1) rfl).symm]
      refine .tree _ _ s1 ?_ fun q hq => ?_
      · rw [bal_cons] at hbal ⊢
        refine ⟨hbal.1.mono fun q hq => ?_, hbal.2⟩
        rw [bigOf_map] at hq ⊢
        obtain ⟨y, y1, y2, y3⟩ := hq
        rcases mem_mid y1 with rfl | y1
        · exact ⟨n1, by simp, y2, by rw [es] at y3; simpa [n1] using y3⟩
        · exact ⟨y, by simp at y1 ⊢; grind, y2, y3⟩
      · rw [ptrs_replace _ _ n n1 _ rfl]
        by_cases e : q = n.p
        · subst e; rw [ptrs_cons]; simp
        · dsimp only at hq
          rw [put_ne _ e] at hq
          exact ho q hq

theorem update_absent {r : Root} {m : List (Nat × Nat)} (h : Inv H K W r m) {k v : Nat} (h0 : k ≠ 0) (hout : k ∉ m.map Prod.fst) : update r k v = some (r, -2) := by
  cases h with
  | empty hn hh _ =>
    unfold update lookupNode
    rw [if_pos hh, Option.bind_some, if_pos rfl]
  | tree N rest h hbal ho =>
    obtain ⟨q, e1, e2⟩ := lookupNode_any (k := k) h
    unfold update
    rw [e1, Option.bind_some]
    rcases e2 with e2 | ⟨n, hn, hp, hb⟩
    · rw [if_pos e2]
    · rw [if_neg (by have := h.low q (by rw [← hp]; exact mem_ptrs List.mem_cons_self hn); omega), hb, Option.bind_some]
      have hout' : k ∉ n.es.map Prod.fst := fun hh => by
        obtain ⟨x, hx, rfl⟩ := List.mem_map.mp hh
        exact hout (List.mem_map.mpr ⟨x, List.mem_flatMap.mpr ⟨n, hn, hx⟩, rfl⟩)
      unfold mk
      rw [keyIndex_absent h0 _ hout']

/-! Iteration -/

/-- The first node of the leaves is the leftmost one below the first span. -/
def Heads (h : Heap) (n : Nat) : List Sp → List GN → Prop
  | [], [] => True
  | s :: _, l :: _ => leftmost h n s.p = some l.p
  | _, _ => False

theorem heads_link {h : Heap} : ∀ {S : List Sp} {L : List GN}, Link S L → Heads h 0 S L
  | [], [], _ => trivial
  | s :: _, l :: _, hl => by show some s.p = _; rw [hl.1]
  | [], _ :: _, h => absurd h (by simp [Link])
  | _ :: _, [], h => absurd h (by simp [Link])

theorem heads_up {h : Heap} {n : Nat} {S : List Sp} {post L : List GN} (hl : Link S post) (hne : ∀ y ∈ post, y.es ≠ []) (hh : ∀ y ∈ post, h y.p = some (mk K y.es))
    (hd : Heads h n (kidsOf post) L) : Heads h (n + 1) S L := by
  cases post with
  | nil =>
    cases S with
    | nil => cases L with
      | nil => trivial
      | cons => exact absurd hd (by simp [kidsOf, Heads])
    | cons => exact absurd hl (by simp [Link])
  | cons y post =>
    obtain ⟨s, S', rfl, p1, _⟩ := Link.cons_right hl
    cases hy : y.es with
    | nil => exact absurd hy (hne y (by simp))
    | cons f es =>
      rw [kidsOf_cons, hy, kids, List.cons_append] at hd
      cases L with
      | nil => exact absurd hd (by simp [Heads])
      | cons l L =>
        have hd' : leftmost h n f.2 = some l.p := hd
        show leftmost h (n + 1) s.p = some l.p
        rw [leftmost, ← p1, hh y (by simp), Option.bind_some, hy, show valAt (mk K (f :: es)) 0 = some f.2 from valAt_mk (a := []) (b := es) rfl, Option.bind_some, hd']

/-- The same at the other end. -/
def Tails (h : Heap) (n : Nat) (S : List Sp) (L : List GN) : Prop :=
  (S = [] ∧ L = []) ∨ ∃ S' s L' l, S = S' ++ [s] ∧ L = L' ++ [l] ∧ rightmost h n s.p = some l.p

theorem nil_or_snoc {α : Type} (l : List α) : l = [] ∨ ∃ a x, l = a ++ [x] := by
  rcases List.eq_nil_or_concat l with h | ⟨a, x, h⟩
  · exact Or.inl h
  · exact Or.inr ⟨a, x, by simpa using h⟩

theorem tails_link {h : Heap} {S : List Sp} {L : List GN} (hl : Link S L) : Tails h 0 S L := by
  rcases nil_or_snoc L with rfl | ⟨L', l, rfl⟩
  · cases S with
    | nil => exact Or.inl ⟨rfl, rfl⟩
    | cons => exact absurd hl (by simp [Link])
  · obtain ⟨A, B, rfl, l1, l2⟩ := Link.split' hl
    obtain ⟨s, B, rfl, p1, _, _, l3⟩ := Link.cons_right l2
    cases B with
    | cons => exact absurd l3 (by simp [Link])
    | nil => exact Or.inr ⟨A, s, L', l, rfl, rfl, by rw [rightmost, p1]⟩

theorem kids_snoc (hi : Nat) (a : List (Nat × Nat)) (e : Nat × Nat) : kids hi (a ++ [e]) = kids hi a ++ [⟨e.2, e.1, hiAt hi a⟩] := by
  rw [kids_append]; rfl

theorem rightmost_step {h : Heap} {n p : Nat} {a : List (Nat × Nat)} {e : Nat × Nat} (hp : h p = some (mk K (a ++ [e]))) (hv : ∀ x ∈ a ++ [e], x.2 ≠ 0) :
    rightmost h (n + 1) p = rightmost h n e.2 := by
  rw [rightmost, hp, Option.bind_some, fillIndex_mk hv (by simp), if_neg (by simp), show (a ++ [e]).length - 1 = a.length from by simp, valAt_mk rfl, Option.bind_some]

theorem tails_up {h : Heap} {n : Nat} {S : List Sp} {pre L : List GN} (hl : Link S pre) (hne : ∀ y ∈ pre, y.es ≠ []) (hv : ∀ y ∈ pre, ∀ x ∈ y.es, x.2 ≠ 0)
    (hh : ∀ y ∈ pre, h y.p = some (mk K y.es)) (hd : Tails h n (kidsOf pre) L) : Tails h (n + 1) S L := by
  rcases nil_or_snoc pre with rfl | ⟨pre, y, rfl⟩
  · cases S with
    | nil =>
      rcases hd with ⟨_, hd⟩ | ⟨S', s, L', l, h1, _⟩
      · exact Or.inl ⟨rfl, hd⟩
      · simp [kidsOf] at h1
    | cons => exact absurd hl (by simp [Link])
  · obtain ⟨A, B, rfl, l1, l2⟩ := Link.split' hl
    obtain ⟨s, B, rfl, p1, _, _, l3⟩ := Link.cons_right l2
    cases B with
    | cons => exact absurd l3 (by simp [Link])
    | nil =>
      obtain ⟨a, e, hy⟩ := last_split (hne y (by simp))
      rw [kidsOf_append, kidsOf_cons, hy, kids_snoc] at hd
      rcases hd with ⟨hd, _⟩ | ⟨S', s', L', l, h1, h2, h3⟩
      · simp at hd
      · refine Or.inr ⟨A, s, L', l, rfl, h2, ?_⟩
        have hs : s' = ⟨e.2, e.1, hiAt y.hi a⟩ := by
          have := congrArg List.getLast? h1
          simpa [kidsOf] using this.symm
        rw [hs] at h3
        rw [← p1, rightmost_step (by rw [hh y (by simp), hy]) (fun x hx => hv y (by simp) x (by rw [hy]; exact hx))]
        exact h3

/-- Nodes of a level beside another one are not empty. -/
theorem beside {level : Nat} {r : Root} {pre post : List GN} {n : GN} {rest : List (List GN)} (h : St K W level r ((pre ++ n :: post) :: rest)) :
    (∀ y ∈ post, y.es ≠ []) ∧ ∀ y ∈ pre, y.es ≠ [] := by
  by_cases hr : rest = []
  · subst hr
    obtain ⟨rfl, rfl⟩ := Link.single h.chain.1
    simp
  · exact ⟨fun y hy => h.chain.2.2.1 hr y (by simp [hy]), fun y hy => h.chain.2.2.1 hr y (by simp [hy])⟩

theorem next_up {r : Root} {k : Nat} {L : List GN} {rest : List (List GN)} {A : List Sp} {c : Sp} {B : List Sp} (hf : Foc W r.node k rest A c B) :
    ∀ {level : Nat}, 2 ≤ level → St K W level r rest → Heads r.heap (level - 2) B L →
    (nextLoop k rest.length level r = some (r, none) ∧ L = []) ∨
    ∃ p i d b q l L', nextLoop k rest.length level r = some (r, some (p, i, d)) ∧ 2 ≤ d ∧ r.heap p = some b ∧ valAt b i = some q ∧
      leftmost r.heap (d - 2) q = some l.p ∧ L = l :: L' := by
  induction hf with
  | top =>
    intro level hlev h hd
    left
    refine ⟨rfl, ?_⟩
    cases L with
    | nil => rfl
    | cons => exact absurd hd (by simp [Heads])
  | @down R A0 c0 B0 pre m post a e b f1 hA hB hp h1 h2 h3 h4 he ha hek ih =>
    intro level hlev h hd
    have hmem : m ∈ pre ++ m :: post := by simp
    have ok := h.chain.2.1 m hmem
    have hq := h.hold.head m hmem
    rw [he] at hq
    have hfp := findParent_foc (by omega) h f1
    rw [← hp] at hfp
    rw [List.length_cons, nextLoop, hfp, Option.bind_some]
    try dsimp only
    rw [hq, Option.bind_some]
    try dsimp only
    rw [findIndex_mk K k ha (by simpa using hek), fillIndex_mk (fun x hx => ok.val x (by rw [he]; exact hx)) (by simp)]
    cases b with
    | cons f b =>
      rw [if_pos (by simp)]
      right
      rw [kids, List.cons_append] at hd
      cases L with
      | nil => exact absurd hd (by simp [Heads])
      | cons l L =>
        exact ⟨_, _, _, _, f.2, l, L, rfl, hlev, hq, by
          rw [show a ++ e :: f :: b = (a ++ [e]) ++ f :: b from by simp]; exact valAt_mk (by simp), hd, rfl⟩
    | nil =>
      rw [if_neg (by simp)]
      have hb := (beside h).1
      have hu := heads_up (K := K) (n := level - 2) hB hb (fun y hy => h.hold.head y (by simp [hy])) (by simpa [kids] using hd)
      exact ih (level := level + 1) (by omega) (h.tail (by omega)) (by rw [show level + 1 - 2 = level - 2 + 1 from by omega]; exact hu)

theorem next_leaf {r : Root} {k : Nat} {pre post : List GN} {n : GN} {rest : List (List GN)} {A : List Sp} {c : Sp} {B : List Sp} {a b : List (Nat × Nat)}
    (h : St K W 1 r ((pre ++ n :: post) :: rest)) (hf : Foc W r.node k rest A c B) (hB : Link B post) (hp : n.p = c.p) (hk0 : k ≠ 0) (he : n.es = a ++ b) (ha : ∀ x ∈ a, k < x.1)
    (hb : ∀ e, b.head? = some e → e.1 ≤ k) : next r k = some (r, (b.tail ++ flat post).head?) := by
  have hht := h.height
  simp only [List.length_cons] at hht
  have ok := h.chain.2.1 n (by simp)
  have hq := h.hold.head n (by simp)
  rw [he] at hq
  have hfp := findParent_foc (by omega) h hf
  rw [← hp] at hfp
  unfold next
  rw [if_neg (by omega), if_neg hk0, show r.height = rest.length + 1 from by omega, nextLoop, hfp, Option.bind_some]
  try dsimp only
  rw [hq, Option.bind_some]
  try dsimp only
  rw [findIndex_mk K k ha hb, fillIndex_mk (fun x hx => ok.val x (by rw [he]; exact hx)) (by simp)]
  have hup : b.tail = [] → ((nextLoop k rest.length (1 + 1) r).bind fun s =>
    match s with
    | (r, none) => some (r, none)
    | (r, some (p, index, depth)) =>
      if depth = 1 then (entry r.heap p index).map fun e => (r, some e)
      else
        (r.heap p).bind fun b => (valAt b index).bind fun q => (leftmost r.heap (depth - 2) q).bind fun q =>
        (entry r.heap q 0).map fun e => (r, some e)) = some (r, (b.tail ++ flat post).head?) := by
    intro ht
    rw [ht, List.nil_append]
    rcases next_up (L := post) hf (by omega : 2 ≤ 1 + 1) (h.tail (by omega)) (heads_link hB) with ⟨e1, rfl⟩ | ⟨p, i, d, b', q, l, L', e1, e2, e3, e4, e5, rfl⟩
    · rw [e1, Option.bind_some]
      rfl
    · rw [e1, Option.bind_some]
      try dsimp only
      rw [if_neg (by omega), e3, Option.bind_some, e4, Option.bind_some, e5, Option.bind_some]
      have hl := (beside h).1 l (by simp)
      cases hes : l.es with
      | nil => exact absurd hes hl
      | cons f es =>
        have hql := h.hold.head l (by simp)
        rw [hes] at hql
        unfold entry
        rw [hql, Option.bind_some, show keyAt (mk K (f :: es)) 0 = some f.1 from keyAt_mk (a := []) (b := es) rfl, Option.bind_some,
          show valAt (mk K (f :: es)) 0 = some f.2 from valAt_mk (a := []) (b := es) rfl, flat_cons, hes]
        rfl
  cases b with
  | nil =>
    rw [if_neg (by simp)]
    exact hup rfl
  | cons e b =>
    cases b with
    | nil =>
      rw [if_neg (by simp)]
      exact hup rfl
    | cons f b =>
      rw [if_pos (by simp), Option.bind_some]
      try dsimp only
      rw [if_pos rfl]
      unfold entry
      rw [hq, Option.bind_some, show a ++ e :: f :: b = (a ++ [e]) ++ f :: b from by simp, keyAt_mk (by simp), Option.bind_some, valAt_mk (by simp)]
      rfl

theorem prev_up {r : Root} {k : Nat} {L : List GN} {rest : List (List GN)} {A : List Sp} {c : Sp} {B : List Sp} (hf : Foc W r.node k rest A c B) :
    ∀ {level : Nat}, 2 ≤ level → St K W level r rest → Tails r.heap (level - 2) A L →
    (prevLoop k rest.length level r = some (r, none) ∧ L = []) ∨
    ∃ p i d b q l L', prevLoop k rest.length level r = some (r, some (p, i, d)) ∧ 2 ≤ d ∧ r.heap p = some b ∧ valAt b i = some q ∧
      rightmost r.heap (d - 2) q = some l.p ∧ L = L' ++ [l] := by
  induction hf with
  | top =>
    intro level hlev h hd
    left
    refine ⟨rfl, ?_⟩
    rcases hd with ⟨_, hd⟩ | ⟨S', s, L', l, h1, _⟩
    · exact hd
    · simp at h1
  | @down R A0 c0 B0 pre m post a e b f1 hA hB hp h1 h2 h3 h4 he ha hek ih =>
    intro level hlev h hd
    have hmem : m ∈ pre ++ m :: post := by simp
    have ok := h.chain.2.1 m hmem
    have hq := h.hold.head m hmem
    rw [he] at hq
    have hfp := findParent_foc (by omega) h f1
    rw [← hp] at hfp
    rw [List.length_cons, prevLoop, hfp, Option.bind_some]
    try dsimp only
    rw [hq, Option.bind_some]
    try dsimp only
    rw [findIndex_mk K k ha (by simpa using hek)]
    rcases nil_or_snoc a with rfl | ⟨a, f, rfl⟩
    · rw [if_neg (by simp)]
      have hb := (beside h).2
      have hu := tails_up (K := K) (n := level - 2) hA hb (fun y hy => (h.chain.2.1 y (by simp [hy])).val) (fun y hy => h.hold.head y (by simp [hy])) (by simpa [kids] using hd)
      exact ih (level := level + 1) (by omega) (h.tail (by omega)) (by rw [show level + 1 - 2 = level - 2 + 1 from by omega]; exact hu)
    · rw [if_pos (by simp)]
      right
      rw [kids_snoc, ← List.append_assoc] at hd
      rcases hd with ⟨hd, _⟩ | ⟨S', s, L', l, g1, g2, g3⟩
      · simp at hd
      · have hs : s = ⟨f.2, f.1, hiAt m.hi a⟩ := by
          have := congrArg List.getLast? g1
          simpa using this.symm
        rw [hs] at g3
        exact ⟨_, _, _, _, f.2, l, L', rfl, hlev, hq, by
          rw [show a ++ [f] ++ e :: b = a ++ f :: (e :: b) from by simp]; exact valAt_mk (by simp), g3, g2⟩

theorem prev_leaf {r : Root} {k : Nat} {pre post : List GN} {n : GN} {rest : List (List GN)} {A : List Sp} {c : Sp} {B : List Sp} {a b : List (Nat × Nat)}
    (h : St K W 1 r ((pre ++ n :: post) :: rest)) (hf : Foc W r.node k rest A c B) (hA : Link A pre) (hp : n.p = c.p) (hk0 : k ≠ 0) (he : n.es = a ++ b) (ha : ∀ x ∈ a, k < x.1)
    (hb : ∀ e, b.head? = some e → e.1 ≤ k) : prev r k = some (r, (flat pre ++ a).getLast?) := by
  have hht := h.height
  simp only [List.length_cons] at hht
  have ok := h.chain.2.1 n (by simp)
  have hq := h.hold.head n (by simp)
  rw [he] at hq
  have hfp := findParent_foc (by omega) h hf
  rw [← hp] at hfp
  unfold prev
  rw [if_neg (by omega), if_neg hk0, show r.height = rest.length + 1 from by omega, prevLoop, hfp, Option.bind_some]
  try dsimp only
  rw [hq, Option.bind_some]
  try dsimp only
  rw [findIndex_mk K k ha hb]
  rcases nil_or_snoc a with rfl | ⟨a, f, rfl⟩
  · rw [if_neg (by simp), List.append_nil]
    rcases prev_up (L := pre) hf (by omega : 2 ≤ 1 + 1) (h.tail (by omega)) (tails_link hA) with ⟨e1, rfl⟩ | ⟨p, i, d, b', q, l, L', e1, e2, e3, e4, e5, rfl⟩
    · rw [e1, Option.bind_some]
      rfl
    · rw [e1, Option.bind_some]
      try dsimp only
      rw [if_neg (by omega), e3, Option.bind_some, e4, Option.bind_some, e5, Option.bind_some]
      have hl := (beside h).2 l (by simp)
      obtain ⟨es, f, hes⟩ := last_split hl
      have hql := h.hold.head l (by simp)
      have okl := h.chain.2.1 l (by simp)
      rw [hes] at hql
      unfold entry
      rw [hql, Option.bind_some, fillIndex_mk (fun x hx => okl.val x (by rw [hes]; exact hx)) (by simp), if_neg (by simp),
        show (es ++ [f]).length - 1 = es.length from by simp, Option.bind_some, keyAt_mk rfl, Option.bind_some, valAt_mk rfl, flat_append, flat_cons, hes]
      simp [flat]
  · rw [if_pos (by simp), Option.bind_some]
    try dsimp only
    rw [if_pos rfl]
    unfold entry
    rw [hq, Option.bind_some, show a ++ [f] ++ b = a ++ f :: b from by simp, keyAt_mk (by simp), Option.bind_some, valAt_mk (by simp)]
    simp

/-- Above descending elements. -/
theorem desc_unique {k : Nat} {v : Nat} {a b a' b' : List (Nat × Nat)} (hd : Desc (a ++ (k, v) :: b)) (h : a ++ (k, v) :: b = a' ++ (k, v) :: b') : b = b' ∧ a = a' := by
  have key : ∀ (a b a' b' : List (Nat × Nat)), Desc (a ++ (k, v) :: b) → a ++ (k, v) :: b = a' ++ (k, v) :: b' → b = b' ∧ a = a' := by
    intro a
    induction a with
    | nil =>
      intro b a' b' hd h
      cases a' with
      | nil => simp at h; exact ⟨h, rfl⟩
      | cons x a' =>
        simp only [List.nil_append, List.cons_append, List.cons.injEq] at h
        have := (List.pairwise_cons.mp hd).1 (k, v) (by rw [h.2]; simp)
        simp at this
    | cons y a ih =>
      intro b a' b' hd h
      cases a' with
      | nil =>
        simp only [List.nil_append, List.cons_append, List.cons.injEq] at h
        have := (List.pairwise_cons.mp hd).1 (k, v) (by simp)
        rw [h.1] at this
        simp at this
      | cons x a' =>
        simp only [List.cons_append, List.cons.injEq] at h
        obtain ⟨h1, h2⟩ := ih b a' b' (List.pairwise_cons.mp hd).2 h.2
        exact ⟨h1, by rw [h.1, h2]⟩
  exact key a b a' b' hd h

theorem next_present {r : Root} {a b : List (Nat × Nat)} {k v : Nat} (h : Inv H K W r (a ++ (k, v) :: b)) : next r k = some (r, b.head?) := by
  have hdesc := h.desc.1
  by_cases hk0 : k = 0
  · subst hk0
    have : b = [] := by
      cases b with
      | nil => rfl
      | cons e b =>
        have := (List.pairwise_cons.mp hdesc.right).1 e (by simp)
        simp at this
    subst this
    unfold next
    split
    · rfl
    · rw [if_pos rfl]; rfl
  · generalize hm : a ++ (k, v) :: b = m at h hdesc
    cases h with
    | empty => simp at hm
    | tree N rest h hbal ho =>
      obtain ⟨pre, n, post, a', b', A, c, B, rfl, es, ha, hlo, hhi, f1, f2, f3, f4⟩ := leaf_of h (show (k, v) ∈ flat N from by rw [← hm]; simp)
      rw [next_leaf h f1 f3 f4 hk0 es ha (by simp)]
      rw [flat_split es] at hm
      rw [(desc_unique (by rw [hm, ← flat_split (pre := pre) (post := post) es]; exact hdesc) hm).1]
      rfl

theorem next_search {r r1 : Root} {k p : Nat} (f1 : findParent r k 1 = some (r1, p)) (f2 : findParent r1 k 1 = some (r1, p)) (hh : r1.height = r.height)
    (h0 : r.height ≠ 0) (hk : k ≠ 0) : next r k = next r1 k := by
  obtain ⟨n, hn⟩ : ∃ n, r.height = n + 1 := ⟨r.height - 1, by omega⟩
  unfold next
  rw [hh, hn, if_neg (by omega : ¬ n + 1 = 0), if_neg hk, if_neg (by omega : ¬ n + 1 = 0), if_neg hk, nextLoop, nextLoop, f1, f2]

theorem prev_search {r r1 : Root} {k p : Nat} (f1 : findParent r k 1 = some (r1, p)) (f2 : findParent r1 k 1 = some (r1, p)) (hh : r1.height = r.height)
    (h0 : r.height ≠ 0) (hk : k ≠ 0) : prev r k = prev r1 k := by
  obtain ⟨n, hn⟩ : ∃ n, r.height = n + 1 := ⟨r.height - 1, by omega⟩
  unfold prev
  rw [hh, hn, if_neg (by omega : ¬ n + 1 = 0), if_neg hk, if_neg (by omega : ¬ n + 1 = 0), if_neg hk, prevLoop, prevLoop, f1, f2]

theorem next_any {r : Root} {m : List (Nat × Nat)} (h : Inv H K W r m) {k : Nat} (hk : k < W) :
    ∃ r' x, next r k = some (r', x) ∧ Inv H K W r' m ∧ r'.calls = r.calls ∧ ∀ e, x = some e → e ∈ m ∧ e.1 < k := by
  by_cases hk0 : k = 0
  · refine ⟨r, none, ?_, h, rfl, by simp⟩
    unfold next
    split
    · rfl
    · rfl
  · cases h with
    | empty hn hh hq => exact ⟨r, none, by unfold next; rw [if_pos hh], .empty hn hh hq, rfl, by simp⟩
    | tree N rest h hbal ho =>
      obtain ⟨h', rest', pre, n, post, A, c, B, f1, f2, s1, g1, g2, g3, g4, hlo, hhi, b1, o1, hfl, hlen, -⟩ := find_leaf h hbal ho hk
      obtain ⟨a, b, es, ha, hb⟩ := exists_split k n.es
      have hht := h.height
      simp only [List.length_cons] at hht
      refine ⟨{ r with heap := h' }, (b.tail ++ flat post).head?, ?_, by rw [← hfl]; exact .tree _ _ s1 b1 o1, rfl, ?_⟩
      · rw [← next_leaf s1 g1 g3 g4 hk0 es ha hb]
        exact next_search f1 f2 rfl (by omega) hk0
      · intro e he
        have hin : e ∈ b.tail ++ flat post := List.mem_of_mem_head? he
        rw [← hfl, flat_append, flat_cons, es]
        refine ⟨?_, ?_⟩
        · rcases List.mem_append.mp hin with h1 | h1
          · simp [List.mem_of_mem_tail h1]
          · simp [h1]
        · rcases List.mem_append.mp hin with h1 | h1
          · cases b with
            | nil => simp at h1
            | cons x b =>
              have hd := (s1.chain.2.1 n (by simp)).desc
              rw [es] at hd
              have := (List.pairwise_cons.mp hd.right).1 e h1
              have := hb x rfl
              omega
          · obtain ⟨y, hy, h1⟩ := List.mem_flatMap.mp h1
            have hfalls := (Link.falls s1.chain.1 (spans_falls s1.chain.2.2.2.2)).1
            have := (List.pairwise_cons.mp (List.pairwise_append.mp hfalls).2.1).1 y hy
            have := ((s1.chain.2.1 y (by simp [hy])).key e h1).2
            omega

theorem prev_ok {r : Root} {m : List (Nat × Nat)} (h : Inv H K W r m) {k : Nat} (hk : k < W) (hk0 : k ≠ 0) :
    ∃ r' a b, prev r k = some (r', a.getLast?) ∧ Inv H K W r' m ∧ r'.calls = r.calls ∧ m = a ++ b ∧ (∀ x ∈ a, k < x.1) ∧ (∀ x ∈ b, x.1 ≤ k) := by
  cases h with
  | empty hn hh hq => exact ⟨r, [], [], by unfold prev; rw [if_pos hh]; rfl, .empty hn hh hq, rfl, rfl, by simp, by simp⟩
  | tree N rest h hbal ho =>
    obtain ⟨h', rest', pre, n, post, A, c, B, f1, f2, s1, g1, g2, g3, g4, hlo, hhi, b1, o1, hfl, hlen, -⟩ := find_leaf h hbal ho hk
    obtain ⟨a, b, es, ha, hb⟩ := exists_split k n.es
    have hht := h.height
    simp only [List.length_cons] at hht
    have hfalls := List.pairwise_append.mp (Link.falls s1.chain.1 (spans_falls s1.chain.2.2.2.2)).1
    refine ⟨{ r with heap := h' }, flat pre ++ a, b ++ flat post, ?_, by rw [← hfl]; exact .tree _ _ s1 b1 o1, rfl, by rw [← hfl, flat_append, flat_cons, es]; simp, ?_, ?_⟩
    · rw [← prev_leaf s1 g1 g2 g4 hk0 es ha hb]
      exact prev_search f1 f2 rfl (by omega) hk0
    · intro x hx
      rcases List.mem_append.mp hx with h1 | h1
      · obtain ⟨y, hy, h1⟩ := List.mem_flatMap.mp h1
        have := hfalls.2.2 y hy n (by simp)
        have := ((s1.chain.2.1 y (by simp [hy])).key x h1).1
        omega
      · exact ha x h1
    · intro x hx
      rcases List.mem_append.mp hx with h1 | h1
      · have hd := (s1.chain.2.1 n (by simp)).desc
        rw [es] at hd
        cases b with
        | nil => simp at h1
        | cons e b =>
          have := hb e rfl
          rcases List.mem_cons.mp h1 with rfl | h1
          · exact this
          · have := (List.pairwise_cons.mp hd.right).1 x h1; omega
      · obtain ⟨y, hy, h1⟩ := List.mem_flatMap.mp h1
        have := (List.pairwise_cons.mp hfalls.2.1).1 y hy
        have := ((s1.chain.2.1 y (by simp [hy])).key x h1).2
        omega

/-- Nodes of the upper levels are not empty. -/
theorem upper {level : Nat} {r : Root} {N : List GN} {rest : List (List GN)} (h : St K W level r (N :: rest)) (hlev : 2 ≤ level) : ∀ y ∈ N, y.es ≠ [] := by
  intro y hy
  by_cases hr : rest = []
  · have := h.chain.2.2.2.1 hr (by simp; omega) y hy
    intro h0; rw [h0] at this; simp at this
  · exact h.chain.2.2.1 hr y hy

theorem first_up {r : Root} {L : List GN} : ∀ {rest : List (List GN)} {level : Nat}, 2 ≤ level → St K W level r rest → Heads r.heap (level - 2) (spans r.node W rest) L →
    ∃ l L', L = l :: L' ∧ leftmost r.heap (r.height - 1) r.node = some l.p
  | [], level, hlev, h, hd => by
    have hht := h.height
    simp only [List.length_nil] at hht
    cases L with
    | nil => exact absurd hd (by simp [Heads, spans])
    | cons l L => exact ⟨l, L, rfl, by rw [show r.height - 1 = level - 2 from by omega]; exact hd⟩
  | M :: R, level, hlev, h, hd => by
    refine first_up (rest := R) (level := level + 1) (by omega) (h.tail (by omega)) ?_
    rw [show level + 1 - 2 = level - 2 + 1 from by omega]
    exact heads_up (K := K) h.chain.1 (upper h hlev) (fun y hy => h.hold.head y hy) hd

theorem last_up {r : Root} {L : List GN} : ∀ {rest : List (List GN)} {level : Nat}, 2 ≤ level → St K W level r rest → Tails r.heap (level - 2) (spans r.node W rest) L →
    ∃ L' l, L = L' ++ [l] ∧ rightmost r.heap (r.height - 1) r.node = some l.p
  | [], level, hlev, h, hd => by
    have hht := h.height
    simp only [List.length_nil] at hht
    rcases hd with ⟨hd, _⟩ | ⟨S', s, L', l, g1, g2, g3⟩
    · simp [spans] at hd
    · refine ⟨L', l, g2, ?_⟩
      have hs : s = ⟨r.node, 0, W⟩ := by
        have := congrArg List.getLast? g1
        simpa [spans] using this.symm
      rw [hs] at g3
      rw [show r.height - 1 = level - 2 from by omega]; exact g3
  | M :: R, level, hlev, h, hd => by
    refine last_up (rest := R) (level := level + 1) (by omega) (h.tail (by omega)) ?_
    rw [show level + 1 - 2 = level - 2 + 1 from by omega]
    exact tails_up (K := K) h.chain.1 (upper h hlev) (fun y hy => (h.chain.2.1 y hy).val) (fun y hy => h.hold.head y hy) hd

theorem first_ok {r : Root} {m : List (Nat × Nat)} (hK : 0 < K) (h : Inv H K W r m) :
    (m = [] ∧ (first r = some none ∨ first r = some (some (0, 0)))) ∨ ∃ e m', m = e :: m' ∧ first r = some (some e) := by
  cases h with
  | empty hn hh hq => exact Or.inl ⟨rfl, Or.inl (by unfold first; rw [if_pos hh])⟩
  | tree N rest h hbal ho =>
    have hht := h.height
    simp only [List.length_cons] at hht
    obtain ⟨l, L, rfl, hl⟩ := first_up (by omega : 2 ≤ 1 + 1) (h.tail (by omega)) (heads_link h.chain.1)
    have hq := h.hold.head l (by simp)
    unfold first
    rw [if_neg (by omega), hl, Option.bind_some]
    unfold entry
    rw [hq, Option.bind_some]
    cases hes : l.es with
    | nil =>
      left
      refine ⟨?_, Or.inr ?_⟩
      · by_cases hr : rest = []
        · subst hr
          obtain ⟨_, rfl⟩ := Link.single (pre := []) h.chain.1
          rw [flat_cons, hes]; rfl
        · exact absurd hes (h.chain.2.2.1 hr l (by simp))
      · have hk : keyAt (mk K []) 0 = some 0 := by
          unfold keyAt
          rw [mk_length (by simp), if_pos hK, show (mk K [])[0]? = some (0, 0) from mk_end (es := []) hK]
          rfl
        rw [hk, Option.bind_some, show valAt (mk K []) 0 = some 0 from valAt_end (es := []) hK]
        rfl
    | cons e es =>
      right
      refine ⟨e, es ++ flat L, by rw [flat_cons, hes]; rfl, ?_⟩
      rw [show keyAt (mk K (e :: es)) 0 = some e.1 from keyAt_mk (a := []) (b := es) rfl, Option.bind_some,
        show valAt (mk K (e :: es)) 0 = some e.2 from valAt_mk (a := []) (b := es) rfl]
      rfl

theorem last_ok {r : Root} {m : List (Nat × Nat)} (h : Inv H K W r m) :
    (m = [] ∧ (r.height = 0 ∧ last r = some none ∨ r.height ≠ 0 ∧ last r = none)) ∨ ∃ m' e, m = m' ++ [e] ∧ last r = some (some e) := by
  cases h with
  | empty hn hh hq => exact Or.inl ⟨rfl, Or.inl ⟨hh, by unfold last; rw [if_pos hh]⟩⟩
  | tree N rest h hbal ho =>
    have hht := h.height
    simp only [List.length_cons] at hht
    obtain ⟨L, l, rfl, hl⟩ := last_up (by omega : 2 ≤ 1 + 1) (h.tail (by omega)) (tails_link h.chain.1)
    have hq := h.hold.head l (by simp)
    have ok := h.chain.2.1 l (by simp)
    unfold last
    rw [if_neg (by omega), hl, Option.bind_some, hq, Option.bind_some]
    unfold entry
    rw [hq, fillIndex_mk ok.val (by simp)]
    rcases nil_or_snoc l.es with hes | ⟨a, e, hes⟩
    · left
      refine ⟨?_, Or.inr ⟨by omega, by rw [hes]; rfl⟩⟩
      by_cases hr : rest = []
      · subst hr
        obtain ⟨rfl, _⟩ := Link.single (post := []) h.chain.1
        rw [List.nil_append, flat_cons, hes]; rfl
      · exact absurd hes (h.chain.2.2.1 hr l (by simp))
    · right
      refine ⟨flat L ++ a, e, by rw [flat_append, flat_cons, hes]; simp [flat], ?_⟩
      rw [hes, if_neg (by simp), Option.bind_some, show (a ++ [e]).length - 1 = a.length from by simp, keyAt_mk rfl, Option.bind_some, valAt_mk rfl]
      rfl

/-! Release -/

theorem release_loop (hKH : K = 2 * H) (hH : 2 ≤ H) : ∀ (m : List (Nat × Nat)) (r : Root) (fuel k v tk tv : Nat) (out : List Nat), Inv H K W r ((k, v) :: m) →
    (∀ e ∈ (k, v) :: m, ¬ ops.refuses e.2) → m.length + 2 ≤ fuel → (m = [] → tk = k ∧ tv = 0) → (∀ e, m.head? = some e → tk = e.1 ∧ tv = e.2) →
    ∃ r', releaseLoop ops fuel r k v tk tv out = some (r', out ++ v :: m.map Prod.snd) ∧ Inv H K W r' []
  | m, r, fuel, k, v, tk, tv, out, h, hr, hf, h1, h2 => by
    obtain ⟨fuel, rfl⟩ : ∃ f, fuel = f + 1 := ⟨fuel - 1, by omega⟩
    have hd := h.desc
    have hv : v ≠ 0 := (hd.2 (k, v) (by simp)).2
    have hkW : k < W := (hd.2 (k, v) (by simp)).1
    obtain ⟨r1, hrem, hin⟩ : ∃ r1, remove ops r k = some (r1, v) ∧ Inv H K W r1 m := by
      rcases remove_present (ops := ops) hKH hH h (k := k) (v := v) (by simp) with ⟨f, g1, g2, _⟩ | ⟨_, r', a, b, g1, g2, g3, _⟩
      · exact absurd ⟨f, g1, g2⟩ (hr (k, v) (by simp))
      · refine ⟨r', g1, ?_⟩
        have := desc_unique (a := []) (by simpa using hd.1) (by simpa using g2)
        rw [← this.2, List.nil_append, ← this.1] at g3
        exact g3
    rw [releaseLoop, if_neg hv, hrem, Option.bind_some]
    unfold nextCursor
    cases m with
    | nil =>
      obtain ⟨rfl, rfl⟩ := h1 rfl
      obtain ⟨r2, x, g1, g2, _, g3⟩ := next_any hin hkW
      have hx : x = none := by
        cases x with
        | none => rfl
        | some e => exact absurd (g3 e rfl).1 (by simp)
      subst hx
      rw [g1]
      obtain ⟨fuel, rfl⟩ : ∃ f, fuel = f + 1 := ⟨fuel - 1, by simp at hf; omega⟩
      refine ⟨r2, ?_, g2⟩
      show releaseLoop ops (fuel + 1) r2 _ 0 _ _ _ = _
      rw [releaseLoop, if_pos rfl]
      rfl
    | cons e m =>
      obtain ⟨rfl, rfl⟩ := h2 e rfl
      rw [next_present (a := []) (b := m) (k := e.1) (v := e.2) hin, Option.map_some, Option.bind_some]
      cases m with
      | nil =>
        obtain ⟨r', e1, e2⟩ := release_loop hKH hH [] r1 fuel e.1 e.2 e.1 0 (out ++ [v]) hin (fun x hx => hr x (by simp at hx ⊢; right; exact hx)) (by simp at hf ⊢; omega) (fun _ => ⟨rfl, rfl⟩) (by simp)
        exact ⟨r', by simpa using e1, e2⟩
      | cons e' m =>
        obtain ⟨r', e1, e2⟩ := release_loop hKH hH (e' :: m) r1 fuel e.1 e.2 e'.1 e'.2 (out ++ [v]) hin (fun x hx => hr x (by simp at hx ⊢; right; exact hx)) (by simp at hf ⊢; omega) (by simp) (by simp)
        exact ⟨r', by simpa using e1, e2⟩

theorem release_ok (hKH : K = 2 * H) (hH : 2 ≤ H) {r : Root} {m : List (Nat × Nat)} (h : Inv H K W r m) (hr : ∀ e ∈ m, ¬ ops.refuses e.2) {n : Nat} (hn : m.length < n) :
    ∃ r', release ops n r = some (r', m.map Prod.snd) ∧ Inv H K W r' [] ∧ r'.node = 0 ∧ ∀ q, r'.heap q = none := by
  have fin : ∀ {r1 : Root} {out : List Nat}, Inv H K W r1 [] → ∃ r', ((if r1.node = 0 then some ({ r1 with node := 0, height := 0 }, out)
      else (free r1 r1.node).map fun r => ({ r with node := 0, height := 0 }, out)) = some (r', out)) ∧ Inv H K W r' [] ∧ r'.node = 0 ∧ ∀ q, r'.heap q = none := by
    intro r1 out h1
    generalize hm : [] = m1 at h1
    cases h1 with
    | empty hn hh hq => exact ⟨{ r1 with node := 0, height := 0 }, by rw [if_pos hn], .empty rfl rfl hq, rfl, hq⟩
    | tree N rest h1 hbal ho =>
      rw [if_neg (h1.root (by simp))]
      have hrest : rest = [] := by
        apply Classical.byContradiction
        intro hr
        cases N with
        | nil =>
          obtain ⟨_, _, hh, _⟩ := first_up (L := []) (by omega : 2 ≤ 1 + 1) (h1.tail (by omega)) (heads_link h1.chain.1)
          simp at hh
        | cons x N =>
          have := h1.chain.2.2.1 hr x (by simp)
          rw [flat_cons] at hm
          exact this (List.append_eq_nil_iff.mp hm.symm).1
      subst hrest
      obtain ⟨x, N', rfl, p1, _, _, hl⟩ := Link.cons_left h1.chain.1
      cases N' with
      | cons => exact absurd hl (by simp [Link])
      | nil =>
        simp only at p1
        have hq := h1.hold.head x (by simp)
        have hall : ∀ q, put r1.heap r1.node none q = none := by
          intro q
          by_cases e : q = r1.node
          · subst e; exact put_self _ _ _
          · rw [put_ne _ e]
            apply Classical.byContradiction
            intro hne
            have := ho q hne
            simp [ptrs] at this
            omega
        unfold free
        rw [← p1, hq, p1]
        exact ⟨{ heap := put r1.heap r1.node none, node := 0, height := 0, calls := r1.calls }, rfl, by rw [← hm]; exact .empty rfl rfl hall, rfl, hall⟩
  unfold release
  rcases first_ok (by omega : 0 < K) h with ⟨rfl, h1 | h1⟩ | ⟨e, m', rfl, h1⟩
  · rw [h1, Option.bind_some]
    exact fin h
  · rw [h1, Option.bind_some]
    try dsimp only
    rw [if_pos rfl, Option.bind_some]
    exact fin h
  · rw [h1, Option.bind_some]
    try dsimp only
    have hv : e.2 ≠ 0 := (h.desc.2 e (by simp)).2
    rw [if_neg hv]
    unfold nextCursor
    rw [next_present (a := []) (b := m') (k := e.1) (v := e.2) h, Option.map_some, Option.bind_some]
    cases m' with
    | nil =>
      obtain ⟨r', e1, e2⟩ := release_loop (ops := ops) hKH hH [] r n e.1 e.2 e.1 0 [] h hr (by simp at hn ⊢; omega) (fun _ => ⟨rfl, rfl⟩) (by simp)
      rw [List.head?_nil]
      try dsimp only
      rw [e1, Option.bind_some]
      exact fin e2
    | cons e' m =>
      obtain ⟨r', e1, e2⟩ := release_loop (ops := ops) hKH hH (e' :: m) r n e.1 e.2 e'.1 e'.2 [] h hr (by simp at hn ⊢; omega) (by simp) (by simp)
      rw [List.head?_cons]
      try dsimp only
      rw [e1, Option.bind_some]
      exact fin e2

end Bfdev.Btree

import Verif.Btree.Slots
/-!
The shape of the tree for the proofs: for every level the list of its nodes, the lowest level first. A node has an interval `[lo, hi)` of keys;
the entries of a level span intervals for the nodes of the level below, and the interval of each node lies in its span.
-/
namespace Bfdev.Btree

structure GN where
  p : Nat
  lo : Nat
  hi : Nat
  es : List (Nat × Nat)

structure Sp where
  p : Nat
  lo : Nat
  hi : Nat

/-- The spans of the entries of a node with the upper bound `hi`. -/
def kids : Nat → List (Nat × Nat) → List Sp
  | _, [] => []
  | hi, e :: es => ⟨e.2, e.1, hi⟩ :: kids e.1 es

/-- The upper bound behind some entries. -/
def hiAt : Nat → List (Nat × Nat) → Nat
  | hi, [] => hi
  | _, e :: es => hiAt e.1 es

def GN.kids (n : GN) : List Sp := Btree.kids n.hi n.es

def kidsOf (N : List GN) : List Sp := N.flatMap GN.kids

def flat (N : List GN) : List (Nat × Nat) := N.flatMap GN.es

/-- The spans for the level below these levels. -/
def spans (root W : Nat) : List (List GN) → List Sp
  | [] => [⟨root, 0, W⟩]
  | M :: _ => kidsOf M

/-- Every node has its span. -/
def Link : List Sp → List GN → Prop
  | [], [] => True
  | c :: cs, n :: ns => n.p = c.p ∧ c.lo ≤ n.lo ∧ n.hi ≤ c.hi ∧ Link cs ns
  | _, _ => False

/-- Wider spans. -/
def Wide : List Sp → List Sp → Prop
  | [], [] => True
  | c :: cs, d :: ds => c.p = d.p ∧ c.lo ≤ d.lo ∧ d.hi ≤ c.hi ∧ Wide cs ds
  | _, _ => False

def Desc (es : List (Nat × Nat)) : Prop := es.Pairwise fun x y => y.1 < x.1

structure GN.Ok (K : Nat) (n : GN) : Prop where
  len : n.es.length ≤ K
  desc : Desc n.es
  key : ∀ e ∈ n.es, n.lo ≤ e.1 ∧ e.1 < n.hi
  val : ∀ e ∈ n.es, e.2 ≠ 0

def Chain (K W root : Nat) : Bool → List (List GN) → Prop
  | _, [] => True
  | leaf, N :: rest => Link (spans root W rest) N ∧ (∀ n ∈ N, n.Ok K) ∧ (rest ≠ [] → ∀ n ∈ N, n.es ≠ []) ∧
      (rest = [] → leaf = false → ∀ n ∈ N, 2 ≤ n.es.length) ∧ Chain K W root false rest

def ptrs (lv : List (List GN)) : List Nat := lv.flatMap fun N => N.map GN.p

def Hold (K : Nat) (h : Heap) (lv : List (List GN)) : Prop := ∀ N ∈ lv, ∀ n ∈ N, h n.p = some (mk K n.es)

/-- The search for `k` from the root through these levels ends at the span `c`. -/
inductive Foc (W root k : Nat) : List (List GN) → List Sp → Sp → List Sp → Prop
  | top : k < W → Foc W root k [] [] ⟨root, 0, W⟩ []
  | down {rest A c B pre n post a e b} : Foc W root k rest A c B → Link A pre → Link B post → n.p = c.p → c.lo ≤ n.lo → n.lo ≤ k → k < n.hi →
      n.hi ≤ c.hi → n.es = a ++ e :: b → (∀ x ∈ a, k < x.1) → e.1 ≤ k →
      Foc W root k ((pre ++ n :: post) :: rest) (kidsOf pre ++ kids n.hi a) ⟨e.2, e.1, hiAt n.hi a⟩ (kids e.1 b ++ kidsOf post)

/-- The levels from `level` up, in memory. -/
structure St (K W level : Nat) (r : Root) (lv : List (List GN)) : Prop where
  height : r.height + 1 = level + lv.length
  chain : Chain K W r.node (level == 1) lv
  hold : Hold K r.heap lv
  nodup : (ptrs lv).Nodup
  low : ∀ q ∈ ptrs lv, 0 < q ∧ q ≤ r.calls
  fresh : ∀ a, r.calls < a → r.heap a = none

/-! Balance. A node whose entries have become few may keep only one, if its neighbours are full. So that the tree never ends with a root of
one entry, among the first `H` and among the last `H` entries of a node with several entries there must be one that leads to a node with
several entries. -/

/-- The address of a node and the values of its entries. -/
abbrev Shape := Nat × List Nat

def sh (n : GN) : Shape := (n.p, n.es.map Prod.snd)

def shape (lv : List (List GN)) : List (List Shape) := lv.map (·.map sh)

/-- The address leads to a node with at least two entries. -/
def bigOf (N : List Shape) (q : Nat) : Prop := ∃ s ∈ N, s.1 = q ∧ 2 ≤ s.2.length

def BigL (H : Nat) (big : Nat → Prop) (vs : List Nat) : Prop := (∃ v ∈ vs.take H, big v) ∧ (∃ v ∈ vs.drop (vs.length - H), big v)

def BigOk (H : Nat) (big : Nat → Prop) (vs : List Nat) : Prop := 2 ≤ vs.length → BigL H big vs

def Bal (H : Nat) : List (List Shape) → Prop
  | N :: M :: rest => (∀ m ∈ M, BigOk H (bigOf N) m.2) ∧ Bal H (M :: rest)
  | _ => True

theorem Bal.tail {H : Nat} {N : List Shape} {rest : List (List Shape)} (h : Bal H (N :: rest)) : Bal H rest := by
  cases rest with
  | nil => trivial
  | cons M rest => exact h.2

theorem BigL.mono {H : Nat} {big big' : Nat → Prop} {vs : List Nat} (h : BigL H big vs) (hm : ∀ v ∈ vs, big v → big' v) : BigL H big' vs := by
  obtain ⟨⟨v, h1, h2⟩, ⟨w, h3, h4⟩⟩ := h
  exact ⟨⟨v, h1, hm v (List.mem_of_mem_take h1) h2⟩, ⟨w, h3, hm w (List.mem_of_mem_drop h3) h4⟩⟩

theorem BigOk.mono {H : Nat} {big big' : Nat → Prop} {vs : List Nat} (h : BigOk H big vs) (hm : ∀ v ∈ vs, big v → big' v) : BigOk H big' vs :=
  fun hl => (h hl).mono hm

/-- Among the first `H` of `a ++ x :: b`, a `big` one. -/
theorem take_ins {H : Nat} {big : Nat → Prop} {a b : List Nat} {x : Nat} (h : H ≤ a.length → ∃ v ∈ a.take H, big v) (hx : big x) :
    ∃ v ∈ (a ++ x :: b).take H, big v ∨ H = 0 := by
  by_cases hl : H ≤ a.length
  · obtain ⟨v, h1, h2⟩ := h hl
    exact ⟨v, by rw [List.take_append_of_le_length hl]; exact h1, Or.inl h2⟩
  · refine ⟨x, ?_, Or.inl hx⟩
    rw [List.take_append, show H - a.length = (H - a.length - 1) + 1 from by omega]
    simp

theorem BigL.of {H : Nat} {big : Nat → Prop} {a b : List Nat} {x y : Nat} {m : List Nat} (hx : big x) (hy : big y)
    (h1 : H ≤ a.length → ∃ v ∈ a.take H, big v) (h2 : H ≤ b.length → ∃ v ∈ b.drop (b.length - H), big v) (h0 : 0 < H)
    (e1 : ∃ b', m = a ++ x :: b') (e2 : ∃ a', m = a' ++ y :: b) : BigL H big m := by
  obtain ⟨b', e1⟩ := e1
  obtain ⟨a', e2⟩ := e2
  constructor
  · obtain ⟨v, h3, h4⟩ := take_ins (b := b') h1 hx
    exact ⟨v, by rw [e1]; exact h3, h4.resolve_right (by omega)⟩
  · rw [e2]
    by_cases hl : H ≤ b.length
    · obtain ⟨v, h3, h4⟩ := h2 hl
      refine ⟨v, ?_, h4⟩
      have : (a' ++ y :: b).length - H = a'.length + (1 + (b.length - H)) := by simp; omega
      rw [this, List.drop_length_add_append, Nat.add_comm 1, List.drop_succ_cons]
      exact h3
    · refine ⟨y, ?_, hy⟩
      rw [List.drop_append_of_le_length (by simp; omega)]
      exact List.mem_append_right _ (by simp)

theorem ptrs_of_shape {lv lv' : List (List GN)} (h : shape lv' = shape lv) : lv'.flatMap (fun N => N.map GN.p) = lv.flatMap fun N => N.map GN.p := by
  have : ∀ l : List (List GN), (l.flatMap fun N => N.map GN.p) = (shape l).flatMap fun N => N.map Prod.fst := by
    intro l
    simp only [shape, List.flatMap_map, List.map_map]
    rfl
  rw [this, this, h]

/-! Spans -/

theorem kids_append : ∀ (hi : Nat) (a b : List (Nat × Nat)), kids hi (a ++ b) = kids hi a ++ kids (hiAt hi a) b
  | _, [], _ => rfl
  | hi, e :: a, b => by simp only [List.cons_append, kids, hiAt, kids_append e.1 a b]

theorem hiAt_append : ∀ (hi : Nat) (a b : List (Nat × Nat)), hiAt hi (a ++ b) = hiAt (hiAt hi a) b
  | _, [], _ => rfl
  | hi, e :: a, b => by simp only [List.cons_append, hiAt, hiAt_append e.1 a b]

theorem kidsOf_append (A B : List GN) : kidsOf (A ++ B) = kidsOf A ++ kidsOf B := by simp [kidsOf]
theorem kidsOf_cons (n : GN) (B : List GN) : kidsOf (n :: B) = kids n.hi n.es ++ kidsOf B := by simp [kidsOf, GN.kids]
theorem flat_append (A B : List GN) : flat (A ++ B) = flat A ++ flat B := by simp [flat]
theorem flat_cons (n : GN) (B : List GN) : flat (n :: B) = n.es ++ flat B := by simp [flat]

theorem kids_split : ∀ (hi : Nat) (es : List (Nat × Nat)) (A : List Sp) (c : Sp) (B : List Sp), kids hi es = A ++ c :: B →
    ∃ a e b, es = a ++ e :: b ∧ A = kids hi a ∧ c = ⟨e.2, e.1, hiAt hi a⟩ ∧ B = kids e.1 b
  | _, [], A, c, B, h => by simp [kids] at h
  | hi, e :: es, [], c, B, h => by
    simp only [kids, List.nil_append, List.cons.injEq] at h
    exact ⟨[], e, es, rfl, rfl, h.1.symm, h.2.symm⟩
  | hi, e :: es, d :: A, c, B, h => by
    simp only [kids, List.cons_append, List.cons.injEq] at h
    obtain ⟨a, e', b, h1, h2, h3, h4⟩ := kids_split e.1 es A c B h.2
    exact ⟨e :: a, e', b, by rw [h1]; rfl, by rw [h2, ← h.1]; rfl, h3, h4⟩

theorem flatMap_split {α β : Type} (f : α → List β) : ∀ (L : List α) (A : List β) (c : β) (B : List β), L.flatMap f = A ++ c :: B →
    ∃ pre m post A' B', L = pre ++ m :: post ∧ f m = A' ++ c :: B' ∧ A = pre.flatMap f ++ A' ∧ B = B' ++ post.flatMap f
  | [], A, c, B, h => by simp at h
  | x :: L, A, c, B, h => by
    rw [List.flatMap_cons] at h
    rcases List.append_eq_append_iff.mp h with ⟨A', h1, h2⟩ | ⟨B', h1, h2⟩
    · obtain ⟨pre, m, post, A'', B'', e1, e2, e3, e4⟩ := flatMap_split f L A' c B h2
      exact ⟨x :: pre, m, post, A'', B'', by rw [e1]; rfl, e2, by rw [h1, e3]; simp, e4⟩
    · cases B' with
      | nil =>
        rw [List.nil_append] at h2
        obtain ⟨pre, m, post, A'', B'', e1, e2, e3, e4⟩ := flatMap_split f L [] c B h2.symm
        refine ⟨x :: pre, m, post, A'', B'', by rw [e1]; rfl, e2, ?_, e4⟩
        rw [List.append_nil] at h1
        rw [List.flatMap_cons, List.append_assoc, ← e3, List.append_nil, h1]
      | cons d B' =>
        rw [List.cons_append, List.cons.injEq] at h2
        obtain ⟨rfl, rfl⟩ := h2
        exact ⟨[], x, L, A, B', rfl, h1, rfl, rfl⟩

theorem Link.append {A B : List Sp} : ∀ {N1 N2 : List GN}, Link A N1 → Link B N2 → Link (A ++ B) (N1 ++ N2) := by
  induction A with
  | nil => intro N1 N2 h1 h2; cases N1 with
    | nil => exact h2
    | cons => exact absurd h1 (by simp [Link])
  | cons c A ih =>
    intro N1 N2 h1 h2
    cases N1 with
    | nil => exact absurd h1 (by simp [Link])
    | cons n N1 => exact ⟨h1.1, h1.2.1, h1.2.2.1, ih h1.2.2.2 h2⟩

theorem Link.split {A B : List Sp} : ∀ {N : List GN}, Link (A ++ B) N → ∃ N1 N2, N = N1 ++ N2 ∧ Link A N1 ∧ Link B N2 := by
  induction A with
  | nil => intro N h; exact ⟨[], N, rfl, trivial, h⟩
  | cons c A ih =>
    intro N h
    cases N with
    | nil => exact absurd h (by simp [Link])
    | cons n N =>
      obtain ⟨N1, N2, h1, h2, h3⟩ := ih h.2.2.2
      exact ⟨n :: N1, N2, by rw [h1]; rfl, ⟨h.1, h.2.1, h.2.2.1, h2⟩, h3⟩

theorem Link.split' {N1 N2 : List GN} : ∀ {S : List Sp}, Link S (N1 ++ N2) → ∃ A B, S = A ++ B ∧ Link A N1 ∧ Link B N2 := by
  induction N1 with
  | nil => intro S h; exact ⟨[], S, rfl, trivial, h⟩
  | cons n N1 ih =>
    intro S h
    cases S with
    | nil => exact absurd h (by simp [Link])
    | cons c S =>
      obtain ⟨A, B, h1, h2, h3⟩ := ih h.2.2.2
      exact ⟨c :: A, B, by rw [h1]; rfl, ⟨h.1, h.2.1, h.2.2.1, h2⟩, h3⟩

theorem Link.cons_left {c : Sp} {S : List Sp} {N : List GN} (h : Link (c :: S) N) :
    ∃ n N', N = n :: N' ∧ n.p = c.p ∧ c.lo ≤ n.lo ∧ n.hi ≤ c.hi ∧ Link S N' := by
  cases N with
  | nil => exact absurd h (by simp [Link])
  | cons n N => exact ⟨n, N, rfl, h⟩

theorem Link.cons_right {n : GN} {S : List Sp} {N : List GN} (h : Link S (n :: N)) :
    ∃ c S', S = c :: S' ∧ n.p = c.p ∧ c.lo ≤ n.lo ∧ n.hi ≤ c.hi ∧ Link S' N := by
  cases S with
  | nil => exact absurd h (by simp [Link])
  | cons c S => exact ⟨c, S, rfl, h⟩

theorem Link.nil_left {N : List GN} (h : Link [] N) : N = [] := by
  cases N with
  | nil => rfl
  | cons => exact absurd h (by simp [Link])

theorem Link.wide : ∀ {S S' : List Sp} {N : List GN}, Wide S' S → Link S N → Link S' N
  | [], [], _, _, h => h
  | [], _ :: _, _, h, _ => absurd h (by simp [Wide])
  | _ :: _, [], _, h, _ => absurd h (by simp [Wide])
  | c :: S, d :: S', N, h, h' => by
    obtain ⟨n, N', rfl, h1, h2, h3, h4⟩ := Link.cons_left h'
    obtain ⟨w1, w2, w3, w4⟩ := h
    exact ⟨by omega, by omega, by omega, Link.wide w4 h4⟩

theorem Wide.refl : ∀ S : List Sp, Wide S S
  | [] => trivial
  | _ :: S => ⟨rfl, Nat.le_refl _, Nat.le_refl _, Wide.refl S⟩

theorem Wide.append : ∀ {A A' B B' : List Sp}, Wide A A' → Wide B B' → Wide (A ++ B) (A' ++ B')
  | [], [], _, _, _, h => h
  | [], _ :: _, _, _, h, _ => absurd h (by simp [Wide])
  | _ :: _, [], _, _, h, _ => absurd h (by simp [Wide])
  | _ :: _, _ :: _, _, _, h, h' => ⟨h.1, h.2.1, h.2.2.1, Wide.append h.2.2.2 h'⟩

theorem Wide.trans : ∀ {A B C : List Sp}, Wide A B → Wide B C → Wide A C
  | [], [], _, _, h => h
  | [], _ :: _, _, h, _ => absurd h (by simp [Wide])
  | _ :: _, [], _, h, _ => absurd h (by simp [Wide])
  | _ :: _, _ :: _, [], _, h => absurd h (by simp [Wide])
  | _ :: _, _ :: _, _ :: _, h, h' => by
    obtain ⟨a1, a2, a3, a4⟩ := h
    obtain ⟨b1, b2, b3, b4⟩ := h'
    exact ⟨by omega, by omega, by omega, Wide.trans a4 b4⟩

theorem kids_wide {hi hi' : Nat} (h : hi ≤ hi') (es : List (Nat × Nat)) : Wide (kids hi' es) (kids hi es) := by
  cases es with
  | nil => trivial
  | cons e es => exact ⟨rfl, Nat.le_refl _, h, Wide.refl _⟩

theorem hiAt_mono {hi hi' : Nat} (h : hi ≤ hi') (a : List (Nat × Nat)) : hiAt hi a ≤ hiAt hi' a := by
  cases a with
  | nil => exact h
  | cons e a => exact Nat.le_refl _

/-- The bound behind descending entries is below all of them. -/
theorem hiAt_le : ∀ {hi : Nat} {a : List (Nat × Nat)}, Desc a → (∀ x ∈ a, x.1 < hi) → hiAt hi a ≤ hi ∧ ∀ x ∈ a, hiAt hi a ≤ x.1
  | hi, [], _, _ => ⟨Nat.le_refl _, by simp⟩
  | hi, e :: a, hd, hh => by
    have hd' := List.pairwise_cons.mp hd
    obtain ⟨h1, h2⟩ := hiAt_le (hi := e.1) hd'.2 fun x hx => hd'.1 x hx
    have := hh e (by simp)
    refine ⟨by simp only [hiAt]; omega, fun x hx => ?_⟩
    rcases List.mem_cons.mp hx with rfl | hx
    · exact h1
    · exact h2 x hx

theorem lt_hiAt {k hi : Nat} : ∀ {a : List (Nat × Nat)}, k < hi → (∀ x ∈ a, k < x.1) → k < hiAt hi a
  | [], h, _ => h
  | e :: a, _, h => lt_hiAt (hi := e.1) (a := a) (h e (by simp)) fun x hx => h x (List.mem_cons_of_mem _ hx)

theorem Desc.left {a b : List (Nat × Nat)} (h : Desc (a ++ b)) : Desc a := (List.pairwise_append.mp h).1
theorem Desc.right {a b : List (Nat × Nat)} (h : Desc (a ++ b)) : Desc b := (List.pairwise_append.mp h).2.1
theorem Desc.cross {a b : List (Nat × Nat)} (h : Desc (a ++ b)) : ∀ x ∈ a, ∀ y ∈ b, y.1 < x.1 := (List.pairwise_append.mp h).2.2

theorem ptrs_cons (N : List GN) (rest : List (List GN)) : ptrs (N :: rest) = N.map GN.p ++ ptrs rest := by simp [ptrs]

theorem Hold.tail {K : Nat} {h : Heap} {N : List GN} {rest : List (List GN)} (hh : Hold K h (N :: rest)) : Hold K h rest :=
  fun M hM => hh M (List.mem_cons_of_mem _ hM)

theorem Hold.head {K : Nat} {h : Heap} {N : List GN} {rest : List (List GN)} (hh : Hold K h (N :: rest)) : ∀ n ∈ N, h n.p = some (mk K n.es) :=
  hh N (by simp)

theorem Hold.cons {K : Nat} {h : Heap} {N : List GN} {rest : List (List GN)} (h1 : ∀ n ∈ N, h n.p = some (mk K n.es)) (h2 : Hold K h rest) :
    Hold K h (N :: rest) := by
  intro M hM
  rcases List.mem_cons.mp hM with rfl | hM
  · exact h1
  · exact h2 M hM

theorem mem_ptrs {lv : List (List GN)} {N : List GN} {n : GN} (h1 : N ∈ lv) (h2 : n ∈ N) : n.p ∈ ptrs lv :=
  List.mem_flatMap.mpr ⟨N, h1, List.mem_map.mpr ⟨n, h2, rfl⟩⟩

theorem mem_ptrs_iff {lv : List (List GN)} {q : Nat} : q ∈ ptrs lv ↔ ∃ N ∈ lv, ∃ n ∈ N, n.p = q := by simp [ptrs]

/-- A heap that is the same on the nodes. -/
theorem Hold.congr {K : Nat} {h h' : Heap} {lv : List (List GN)} (hh : Hold K h lv) (e : ∀ q ∈ ptrs lv, h' q = h q) : Hold K h' lv :=
  fun N hN n hn => by rw [e _ (mem_ptrs hN hn), hh N hN n hn]

theorem put_self (h : Heap) (p : Nat) (b : Option Blk) : put h p b p = b := if_pos rfl
theorem put_ne {h : Heap} {p q : Nat} (b : Option Blk) (hq : q ≠ p) : put h p b q = h q := if_neg hq

theorem St.tail {K W level : Nat} {r : Root} {N : List GN} {rest : List (List GN)} (h0 : 0 < level) (h : St K W level r (N :: rest)) :
    St K W (level + 1) r rest := by
  have hn := h.nodup
  rw [ptrs_cons] at hn
  exact
    { height := by have := h.height; simp only [List.length_cons] at this; omega
      chain := by
        rw [show (level + 1 == 1) = false from by simp; omega]
        exact h.chain.2.2.2.2
      hold := h.hold.tail
      nodup := (List.nodup_append.mp hn).2.1
      low := fun q hq => h.low q (by rw [ptrs_cons]; exact List.mem_append_right _ hq)
      fresh := h.fresh }

/-- Of a level and the ones above, the pointers are different. -/
theorem St.apart {K W level : Nat} {r : Root} {N : List GN} {rest : List (List GN)} (h : St K W level r (N :: rest)) {n : GN} (hn : n ∈ N) :
    n.p ∉ ptrs rest := by
  have hd := h.nodup
  rw [ptrs_cons] at hd
  intro hq
  exact (List.nodup_append.mp hd).2.2 n.p (List.mem_map.mpr ⟨n, hn, rfl⟩) n.p hq rfl

theorem St.distinct {K W level : Nat} {r : Root} {pre post : List GN} {n : GN} {rest : List (List GN)}
    (h : St K W level r ((pre ++ n :: post) :: rest)) : ∀ m ∈ pre ++ post, m.p ≠ n.p := by
  have hd := h.nodup
  rw [ptrs_cons] at hd
  have hd := (List.nodup_append.mp hd).1
  rw [List.map_append, List.map_cons] at hd
  obtain ⟨h1, h2, h3⟩ := List.nodup_append.mp hd
  intro m hm
  rcases List.mem_append.mp hm with hm | hm
  · exact h3 m.p (List.mem_map.mpr ⟨m, hm, rfl⟩) n.p (by simp)
  · intro e
    exact (List.nodup_cons.mp h2).1 (by rw [← e]; exact List.mem_map.mpr ⟨m, hm, rfl⟩)

/-! Searching -/

theorem Foc.spans {W root k : Nat} {lv A c B} (h : Foc W root k lv A c B) : Btree.spans root W lv = A ++ c :: B := by
  cases h with
  | top => rfl
  | down hf _ _ _ _ _ _ _ he _ _ =>
    rw [Btree.spans, kidsOf_append, kidsOf_cons, he, kids_append]
    simp [kids]

theorem Foc.range {W root k : Nat} {lv A c B} (h : Foc W root k lv A c B) : c.lo ≤ k ∧ k < c.hi := by
  cases h with
  | top h => exact ⟨Nat.zero_le _, h⟩
  | down _ _ _ _ _ _ h3 _ _ ha he => exact ⟨he, lt_hiAt h3 ha⟩

theorem stepDown_hit {K k : Nat} {h : Heap} {p : Nat} {a b : List (Nat × Nat)} {e : Nat × Nat} (hp : h p = some (mk K (a ++ e :: b)))
    (hl : (a ++ e :: b).length ≤ K) (ha : ∀ x ∈ a, k < x.1) (he : e.1 ≤ k) (hv : e.2 ≠ 0) : stepDown k h p = some (h, e.2) := by
  unfold stepDown
  have hi : findIndex k (mk K (a ++ e :: b)) = a.length := findIndex_mk K k ha (by simpa using he)
  rw [hp, Option.bind_some]
  dsimp only
  rw [hi, valAt_mk rfl, if_neg, Option.map_some]
  rw [mk_length hl]
  simp at hl ⊢
  exact ⟨by omega, hv⟩

theorem stepDown_miss {K k : Nat} {h : Heap} {p : Nat} {a : List (Nat × Nat)} {e : Nat × Nat} (hp : h p = some (mk K (a ++ [e])))
    (hl : (a ++ [e]).length ≤ K) (ha : ∀ x ∈ a ++ [e], k < x.1) : stepDown k h p = some (put h p (some (mk K (a ++ [(k, e.2)]))), e.2) := by
  unfold stepDown
  have hi : findIndex k (mk K (a ++ [e])) = (a ++ [e]).length := by
    have := findIndex_mk K k (a := a ++ [e]) (b := []) ha (by simp)
    rwa [List.append_nil] at this
  rw [hp, Option.bind_some]
  dsimp only
  rw [hi, if_pos, if_neg (by simp), show (a ++ [e]).length - 1 = a.length from by simp, setKey_mk rfl, Option.bind_some, valAt_mk rfl, Option.map_some]
  rw [mk_length hl]
  rcases Nat.lt_or_ge (a ++ [e]).length K with h1 | h1
  · exact Or.inr (valAt_end h1)
  · exact Or.inl (by omega)

theorem Foc.descend {K W root k : Nat} {leaf : Bool} {h : Heap} {lv A c B} (hf : Foc W root k lv A c B) (hc : Chain K W root leaf lv)
    (hh : Hold K h lv) : Btree.descend k h root lv.length = some (h, c.p) := by
  induction hf generalizing leaf with
  | top => rfl
  | @down rest A c B pre n post a e b hf hA hB hp h1 h2 h3 h4 he ha hek ih =>
    rw [List.length_cons, Btree.descend, ih hc.2.2.2.2 hh.tail, Option.bind_some]
    have hn : n ∈ pre ++ n :: post := by simp
    have ok := hc.2.1 n hn
    have hq := hh.head n hn
    rw [he, hp] at hq
    exact stepDown_hit hq (by rw [← he]; exact ok.len) ha hek (ok.val e (by rw [he]; simp))

/-- A node is found by every key of its interval. -/
theorem locate {K W root k : Nat} : ∀ {rest : List (List GN)} {leaf : Bool} {pre post : List GN} {n : GN},
    Chain K W root leaf ((pre ++ n :: post) :: rest) → n.lo ≤ k → k < n.hi →
    ∃ A c B, Foc W root k rest A c B ∧ Link A pre ∧ Link B post ∧ n.p = c.p ∧ c.lo ≤ n.lo ∧ n.hi ≤ c.hi := by
  intro rest
  induction rest with
  | nil =>
    intro leaf pre post n hc h1 h2
    obtain ⟨A, B, e1, l1, l2⟩ := Link.split' hc.1
    obtain ⟨c, B, rfl, p1, p2, p3, l3⟩ := Link.cons_right l2
    refine ⟨A, c, B, ?_, l1, l3, p1, p2, p3⟩
    rw [Btree.spans] at e1
    have : A = [] ∧ c = ⟨root, 0, W⟩ ∧ B = [] := by
      cases A with
      | nil => simp at e1; exact ⟨rfl, e1.1.symm, e1.2⟩
      | cons => simp at e1
    obtain ⟨rfl, rfl, rfl⟩ := this
    exact .top (by simp only at p3; omega)
  | cons M rest ih =>
    intro leaf pre post n hc h1 h2
    obtain ⟨A, B, e1, l1, l2⟩ := Link.split' hc.1
    obtain ⟨c, B, rfl, p1, p2, p3, l3⟩ := Link.cons_right l2
    refine ⟨A, c, B, ?_, l1, l3, p1, p2, p3⟩
    rw [Btree.spans, kidsOf] at e1
    obtain ⟨prem, m, postm, A', B', rfl, e2, rfl, rfl⟩ := flatMap_split _ _ _ _ _ e1
    obtain ⟨a, e, b, e3, rfl, rfl, rfl⟩ := kids_split _ _ _ _ _ e2
    have hcm := hc.2.2.2.2
    have ok := hcm.2.1 m (by simp)
    have hd := ok.desc
    rw [e3] at hd
    simp only at p1 p2 p3
    have hk : k < hiAt m.hi a := by omega
    have hle := hiAt_le hd.left fun x hx => (ok.key x (by rw [e3]; simp [hx])).2
    have hlo := (ok.key e (by rw [e3]; simp)).1
    obtain ⟨Am, cm, Bm, f1, f2, f3, f4, f5, f6⟩ := ih hcm (by omega) (by omega : k < m.hi)
    exact .down f1 f2 f3 f4 f5 (by omega) (by omega) f6 e3 (fun x hx => by have := hle.2 x hx; omega) (by omega)

end Bfdev.Btree

import Verif.Btree.Find
/-! `insert_level`: a node with room takes the entry, a full one is split, upwards as far as needed. -/
namespace Bfdev.Btree

variable {K W : Nat} {mem : Nat → Bool} {ops : Ops}

theorem below_of_head {k : Nat} : ∀ {b : List (Nat × Nat)}, Desc b → (∀ e, b.head? = some e → e.1 < k) → ∀ e ∈ b, e.1 < k
  | [], _, _ => by simp
  | x :: b, hd, hb => by
    have := hb x rfl
    intro e he
    rcases List.mem_cons.mp he with rfl | he
    · exact this
    · have := (List.pairwise_cons.mp hd).1 e he; omega

theorem ok_insert {n : GN} {k v : Nat} {a b : List (Nat × Nat)} (ok : n.Ok K) (he : n.es = a ++ b) (hlo : n.lo ≤ k) (hhi : k < n.hi)
    (ha : ∀ x ∈ a, k < x.1) (hb : ∀ e, b.head? = some e → e.1 < k) (hv : v ≠ 0) (hl : n.es.length < K) :
    GN.Ok K ⟨n.p, n.lo, n.hi, a ++ (k, v) :: b⟩ := by
  have hd := ok.desc
  rw [he] at hd hl
  have hb' := below_of_head hd.right hb
  refine ⟨by simp at hl ⊢; omega, ?_, fun x hx => ?_, fun x hx => ?_⟩
  · refine List.pairwise_append.mpr ⟨hd.left, List.pairwise_cons.mpr ⟨hb', hd.right⟩, fun x hx y hy => ?_⟩
    rcases List.mem_cons.mp hy with rfl | hy
    · exact ha x hx
    · exact hd.cross x hx y hy
  · rcases List.mem_append.mp hx with hx | hx
    · exact ok.key x (by rw [he]; simp [hx])
    · rcases List.mem_cons.mp hx with rfl | hx
      · exact ⟨hlo, hhi⟩
      · exact ok.key x (by rw [he]; simp [hx])
  · rcases List.mem_append.mp hx with hx | hx
    · exact ok.val x (by rw [he]; simp [hx])
    · rcases List.mem_cons.mp hx with rfl | hx
      · exact hv
      · exact ok.val x (by rw [he]; simp [hx])

/-- Storing new entries in a node. -/
theorem st_store {level : Nat} {r : Root} {pre post : List GN} {n n' : GN} {rest : List (List GN)}
    (h : St K W level r ((pre ++ n :: post) :: rest)) (hp : n'.p = n.p) (hlo : n'.lo = n.lo) (hhi : n'.hi = n.hi) (ok : n'.Ok K)
    (h1 : rest ≠ [] → n'.es ≠ []) (h2 : rest = [] → (level == 1) = false → 2 ≤ n'.es.length) :
    St K W level { r with heap := put r.heap n.p (some (mk K n'.es)) } ((pre ++ n' :: post) :: rest) :=
  { height := by have := h.height; simpa using this
    chain := by
      obtain ⟨A, Y, e1, l1, l2⟩ := Link.split' h.chain.1
      obtain ⟨c, B, rfl, p1, p2, p3, l3⟩ := Link.cons_right l2
      exact h.chain.replace e1 (l1.append ⟨by omega, by omega, by omega, l3⟩) ok h1 h2
    hold := h.hold.replace h.nodup hp
    nodup := by rw [ptrs_replace _ _ _ _ _ hp]; exact h.nodup
    low := by rw [ptrs_replace _ _ _ _ _ hp]; exact h.low
    fresh := fun a ha => by
      show put r.heap n.p _ a = none
      have := (h.low n.p (by rw [ptrs_cons]; simp)).2
      rw [put_ne _ (by rintro rfl; exact absurd ha (by show ¬ (r.calls < n.p); omega))]
      exact h.fresh a ha }

/-- A node with room takes the entry. -/
theorem insert_room {fuel level : Nat} {r : Root} {pre post : List GN} {n : GN} {rest : List (List GN)} {k v : Nat} {key : Key} {a b : List (Nat × Nat)} (h0 : 0 < level)
    (h : St K W level r ((pre ++ n :: post) :: rest)) (hlo : n.lo ≤ k) (hhi : k < n.hi) (he : n.es = a ++ b) (ha : ∀ x ∈ a, k < x.1)
    (hb : ∀ e, b.head? = some e → e.1 < k) (hv : v ≠ 0) (hl : n.es.length < K) (hkey : key.read r.heap = some k) :
    insertLevel K mem ops (fuel + 1) r level key v = some ({ r with heap := put r.heap n.p (some (mk K (a ++ (k, v) :: b))) }, 0) ∧
    St K W level { r with heap := put r.heap n.p (some (mk K (a ++ (k, v) :: b))) } ((pre ++ ⟨n.p, n.lo, n.hi, a ++ (k, v) :: b⟩ :: post) :: rest) := by
  have ok := h.chain.2.1 n (by simp)
  obtain ⟨A, c, B, f1, f2, f3, f4, f5, f6⟩ := locate h.chain hlo hhi
  have hfp := findParent_foc h0 h f1
  have hq := h.hold.head n (by simp)
  rw [he] at hq
  have hle : ∀ e, b.head? = some e → e.1 ≤ k := fun e hh => Nat.le_of_lt (hb e hh)
  constructor
  · have hns : ¬ (r.height < level) := by have := h.height; simp only [List.length_cons] at this; omega
    rw [insertLevel, if_neg hns, Option.bind_some]
    try dsimp only
    rw [if_neg (by simp), hkey, Option.bind_some, hfp, Option.bind_some, ← f4]
    try dsimp only
    rw [hq, Option.bind_some]
    try dsimp only
    have hval : ∀ x ∈ a ++ b, x.2 ≠ 0 := fun x hx => ok.val x (by rw [he]; exact hx)
    rw [findIndex_mk K k ha hle, fillIndex_mk hval (by simp), mk_length (by rw [← he]; omega), if_neg, if_pos (by rw [← he]; omega)]
    · have := insert_mk (K := K) (a := a) (b := b) (k, v) (by rw [← he]; omega)
      generalize hs : shiftUp a.length ((a ++ b).length - a.length) (mk K (a ++ b)) = o at this ⊢
      cases o with
      | none => simp at this
      | some s =>
        rw [Option.bind_some] at this
        rw [Option.bind_some, this, Option.map_some]
    · cases b with
      | nil => simp
      | cons e b =>
        rw [keyAt_mk rfl]
        intro hx
        have := hb e rfl
        have := hx.2
        simp only [Option.some.injEq] at this
        omega
  · exact st_store (n' := ⟨n.p, n.lo, n.hi, a ++ (k, v) :: b⟩) h rfl rfl rfl (ok_insert ok he hlo hhi ha hb hv hl) (fun _ => by simp) fun hr hf => by
      have := h.chain.2.2.2.1 hr hf n (by simp)
      rw [he] at this
      simp at this ⊢
      omega

/-- A key already there. -/
theorem insert_clash {fuel level : Nat} {r : Root} {pre post : List GN} {n : GN} {rest : List (List GN)} {k v : Nat} {key : Key} {a b : List (Nat × Nat)} {old : Nat}
    (h0 : 0 < level) (h : St K W level r ((pre ++ n :: post) :: rest)) (he : n.es = a ++ (k, old) :: b) (hkey : key.read r.heap = some k) :
    insertLevel K mem ops (fuel + 1) r level key v = some (r, match ops.clash with | some f => f old v | none => -114) := by
  have ok := h.chain.2.1 n (by simp)
  have hk := ok.key (k, old) (by rw [he]; simp)
  obtain ⟨A, c, B, f1, f2, f3, f4, f5, f6⟩ := locate (k := k) h.chain hk.1 hk.2
  have hfp := findParent_foc h0 h f1
  have hq := h.hold.head n (by simp)
  rw [he] at hq
  have hd := ok.desc
  rw [he] at hd
  have hns : ¬ (r.height < level) := by have := h.height; simp only [List.length_cons] at this; omega
  rw [insertLevel, if_neg hns, Option.bind_some]
  try dsimp only
  rw [if_neg (by simp), hkey, Option.bind_some, hfp, Option.bind_some, ← f4]
  try dsimp only
  rw [hq, Option.bind_some]
  try dsimp only
  have hval : ∀ x ∈ a ++ (k, old) :: b, x.2 ≠ 0 := fun x hx => ok.val x (by rw [he]; exact hx)
  rw [findIndex_mk K k (fun x hx => hd.cross x hx (k, old) (by simp)) (by simp), fillIndex_mk hval (by simp), if_pos ⟨by simp, keyAt_mk rfl⟩]
  cases ops.clash with
  | none => rfl
  | some f => simp only [valAt_mk (K := K) (a := a) (b := b) (e := (k, old)) rfl, Option.map_some]

/-! The balance -/

def BigLv (H : Nat) (big : Nat → Prop) : List (List GN) → Prop
  | [] => True
  | M :: _ => ∀ m ∈ M, BigOk H big (m.es.map Prod.snd)

theorem bal_cons {H : Nat} {N : List GN} {rest : List (List GN)} :
    Bal H (shape (N :: rest)) ↔ BigLv H (bigOf (N.map sh)) rest ∧ Bal H (shape rest) := by
  cases rest with
  | nil => simp [shape, Bal, BigLv]
  | cons M rest =>
    simp only [shape, List.map_cons, Bal, BigLv, List.mem_map, forall_exists_index, and_imp, forall_apply_eq_imp_iff₂]
    rfl

theorem BigLv.mono {H : Nat} {big big' : Nat → Prop} {lv : List (List GN)} (h : BigLv H big lv) (hm : ∀ v, big v → big' v) : BigLv H big' lv := by
  cases lv with
  | nil => trivial
  | cons M rest => exact fun m hm' => (h m hm').mono fun v _ => hm v

theorem bigOf_map {N : List GN} {q : Nat} : bigOf (N.map sh) q ↔ ∃ n ∈ N, n.p = q ∧ 2 ≤ n.es.length := by
  constructor
  · rintro ⟨s, hs, h1, h2⟩
    obtain ⟨n, hn, rfl⟩ := List.mem_map.mp hs
    exact ⟨n, hn, h1, by simpa [sh] using h2⟩
  · rintro ⟨n, hn, h1, h2⟩
    exact ⟨sh n, List.mem_map.mpr ⟨n, hn, rfl⟩, h1, by simpa [sh] using h2⟩

theorem big_insert {H : Nat} (hH : 2 ≤ H) {big : Nat → Prop} {a b : List (Nat × Nat)} {k v : Nat} (h : BigOk H big ((a ++ b).map Prod.snd)) (hv : big v)
    (hb : ∀ e, b.head? = some e → big e.2) : BigOk H big ((a ++ (k, v) :: b).map Prod.snd) := by
  intro _
  have h1 : H ≤ (a.map Prod.snd).length → ∃ w ∈ (a.map Prod.snd).take H, big w := by
    intro hl
    have := (h (by simp at hl ⊢; omega)).1
    rwa [List.map_append, List.take_append_of_le_length hl] at this
  cases b with
  | nil =>
    exact BigL.of (a := a.map Prod.snd) (b := []) hv hv h1 (by intro hh; simp at hh; omega) (by omega) ⟨[], by simp⟩ ⟨a.map Prod.snd, by simp⟩
  | cons e b =>
    refine BigL.of (a := a.map Prod.snd) (b := b.map Prod.snd) hv (hb e rfl) h1 ?_ (by omega) ⟨(e :: b).map Prod.snd, by simp⟩ ⟨(a ++ [(k, v)]).map Prod.snd, by simp⟩
    intro hl
    obtain ⟨w, h3, h4⟩ := (h (by simp at hl ⊢; omega)).2
    refine ⟨w, ?_, h4⟩
    rw [List.length_map] at hl
    rw [show ((a ++ e :: b).map Prod.snd) = (a.map Prod.snd ++ [e.2]) ++ b.map Prod.snd from by simp,
      show ((a.map Prod.snd ++ [e.2]) ++ b.map Prod.snd).length - H = (a.map Prod.snd ++ [e.2]).length + (b.length - H) from by simp; omega,
      List.drop_length_add_append] at h3
    simpa using h3

theorem big_halves {H : Nat} (hH : 2 ≤ H) {big : Nat → Prop} {x y : List (Nat × Nat)} (hx : x.length = H) (hy : y.length = H)
    (h : BigOk H big ((x ++ y).map Prod.snd)) : BigOk H big (x.map Prod.snd) ∧ BigOk H big (y.map Prod.snd) := by
  obtain ⟨⟨v, h1, h2⟩, ⟨w, h3, h4⟩⟩ := h (by simp; omega)
  rw [List.map_append, List.take_left' (by simpa using hx)] at h1
  rw [List.map_append, show (x.map Prod.snd ++ y.map Prod.snd).length - H = (x.map Prod.snd).length from by simp; omega, List.drop_left] at h3
  refine ⟨fun _ => ⟨⟨v, by rw [List.take_of_length_le (by simp; omega)]; exact h1, h2⟩, ⟨v, by simpa [hx] using h1, h2⟩⟩,
    fun _ => ⟨⟨w, by rw [List.take_of_length_le (by simp; omega)]; exact h3, h4⟩, ⟨w, by simpa [hy] using h3, h4⟩⟩⟩

/-- The balance of a level is kept if the new entry and the one before which it comes lead to nodes with several entries. -/
def Keep (H v : Nat) (hd : Option (Nat × Nat)) (N L : List GN) : Prop :=
  ∀ big : Nat → Prop, big v → (∀ e, hd = some e → big e.2) → (∀ m ∈ N, BigOk H big (m.es.map Prod.snd)) → ∀ m ∈ L, BigOk H big (m.es.map Prod.snd)

/-- What an insertion does to the memory around. -/
structure Ext (r : Root) (lv : List (List GN)) (r' : Root) (lv' : List (List GN)) : Prop where
  same : ∀ a, a ∉ ptrs lv' → r'.heap a = r.heap a
  new : ∀ q ∈ ptrs lv', q ∈ ptrs lv ∨ r.calls < q
  old : ∀ q ∈ ptrs lv, q ∈ ptrs lv'
  calls : r.calls ≤ r'.calls

/-- A refused insertion changes nothing, and the allocator has refused. -/
def Refused (mem : Nat → Bool) (r r' : Root) : Prop :=
  r'.heap = r.heap ∧ r'.node = r.node ∧ r'.height = r.height ∧ r.calls ≤ r'.calls ∧ ∃ c, r.calls ≤ c ∧ c < r'.calls ∧ mem c = false

/-- The key pointer reads `k` as long as memory outside these levels is not changed. -/
def Stable (r : Root) (lv : List (List GN)) (key : Key) (k : Nat) : Prop :=
  ∀ h' : Heap, (∀ a, a ∉ ptrs lv → a ≤ r.calls → h' a = r.heap a) → key.read h' = some k

/-- Inserting an entry for a new node above works at these levels. -/
def Up (H K W : Nat) (mem : Nat → Bool) (ops : Ops) (rest : List (List GN)) : Prop :=
  ∀ level r A c B hk v key fuel lk, 2 ≤ level → rest.length + 2 ≤ fuel → St K W level r rest → Foc W r.node hk rest A c B → c.lo ≤ lk → lk < hk → v ≠ 0 →
    (rest = [] → r.node ≠ 0 ∧ ∃ a x, r.heap r.node = some (mk K (a ++ [(lk, x)])) ∧ ∀ y ∈ a ++ [(lk, x)], y.2 ≠ 0) → Stable r rest key hk →
    Bal H (shape rest) → ∃ r' ret, insertLevel K mem ops fuel r level key v = some (r', ret) ∧
      (ret = -12 ∧ Refused mem r r' ∨
       ret = 0 ∧ ∃ rest' lo', St K W level r' rest' ∧ Ext r rest r' rest' ∧ lo' ≤ lk ∧ spans r'.node W rest' = A ++ ⟨v, hk, c.hi⟩ :: ⟨c.p, lo', hk⟩ :: B ∧
        (lo' ≤ c.lo ∨ rest' = [[⟨r'.node, 0, W, [(hk, v), (lk, c.p)]⟩]]) ∧ Bal H (shape rest') ∧
        ∀ big, big v → big c.p → BigLv H big rest → BigLv H big rest')

theorem insertLevel_search {fuel level : Nat} {r r1 : Root} {key : Key} {v k p : Nat} (h : level ≤ r.height) (h1 : r1.height = r.height)
    (hk : key.read r.heap = some k) (hk1 : key.read r1.heap = some k) (hf : findParent r k level = some (r1, p)) (hf1 : findParent r1 k level = some (r1, p)) :
    insertLevel K mem ops (fuel + 1) r level key v = insertLevel K mem ops (fuel + 1) r1 level key v := by
  rw [insertLevel, insertLevel, if_neg (by omega : ¬ r.height < level), if_neg (by omega : ¬ r1.height < level)]
  simp only [Option.bind_some, hk, hk1, hf, hf1, not_true_eq_false, if_false]

theorem insertLevel_extend {fuel level : Nat} {r r1 : Root} {key : Key} {v : Nat} (h : r.height < level) (he : extend K mem r = some (r1, true))
    (h1 : level ≤ r1.height) : insertLevel K mem ops (fuel + 1) r level key v = insertLevel K mem ops (fuel + 1) r1 level key v := by
  rw [insertLevel, insertLevel, if_pos h, if_neg (by omega : ¬ r1.height < level), he]

theorem up_top {H : Nat} (hH : 2 ≤ H) (hK : 4 ≤ K) : Up H K W mem ops [] := by
  intro level r A c B hk v key fuel lk hlev hfuel h hf hlk hlt hv htop hkey hbal
  obtain ⟨hn0, a, x, hp, hval⟩ := htop rfl
  have hfr := hf
  cases hf with
  | top hkW =>
  obtain ⟨fuel, rfl⟩ : ∃ f, fuel = f + 1 := ⟨fuel - 1, by omega⟩
  have hheight := h.height
  simp only [List.length_nil] at hheight
  have hnc : r.node ≤ r.calls := by
    apply Classical.byContradiction; intro hh
    rw [h.fresh r.node (by omega)] at hp; cases hp
  by_cases hm : mem r.calls
  · let top : GN := ⟨r.calls + 1, 0, W, [(lk, r.node)]⟩
    let r1 : Root := { heap := put (put r.heap (r.calls + 1) (some (List.replicate K (0, 0)))) (r.calls + 1) (some (mk K top.es)), node := r.calls + 1, height := r.height + 1, calls := r.calls + 1 }
    have hex : extend K mem r = some (r1, true) := by
      unfold extend alloc
      rw [if_pos hm]
      try dsimp only
      rw [if_neg hn0, put_ne _ (by omega), hp, Option.bind_some, fillIndex_mk hval (by simp), if_neg (by simp),
        show (a ++ [(lk, x)]).length - 1 = a.length from by simp, keyAt_mk rfl, Option.bind_some, mk_one (by omega)]
      rfl
    have hh : ∀ q, q ≠ r.calls + 1 → r1.heap q = r.heap q := fun q hq => by
      show put (put _ _ _) _ _ q = _
      rw [put_ne _ hq, put_ne _ hq]
    -- the new root has one entry only until the other one is in
    have hns : ¬ (r1.height < level) := by show ¬ (r.height + 1 < level); omega
    have hkr : key.read r1.heap = some hk := hkey _ fun q _ hq => hh q (by omega)
    have hfin : insertLevel K mem ops (fuel + 1) r1 level key v =
        some ({ r1 with heap := put r1.heap (r.calls + 1) (some (mk K [(hk, v), (lk, r.node)])) }, 0) := by
      rw [insertLevel, if_neg hns, Option.bind_some]
      try dsimp only
      rw [if_neg (by simp), hkr, Option.bind_some]
      have : findParent r1 hk level = some (r1, r.calls + 1) := by
        unfold findParent
        rw [show r1.height - level = 0 from by show r.height + 1 - level = 0; omega]; rfl
      rw [this, Option.bind_some]
      try dsimp only
      rw [show r1.heap (r.calls + 1) = some (mk K ([] ++ [(lk, r.node)])) from put_self _ _ _, Option.bind_some]
      try dsimp only
      rw [findIndex_mk K hk (by simp) (by simp; omega), fillIndex_mk (by simpa using hn0) (by simp), keyAt_mk rfl, if_neg (by simp; omega), mk_length (by simp; omega),
        if_pos (by simp; omega)]
      have := insert_mk (K := K) (a := []) (b := [(lk, r.node)]) (hk, v) (by simp; omega)
      generalize hs : shiftUp _ _ (mk K ([] ++ [(lk, r.node)])) = o at this ⊢
      cases o with
      | none => simp at this
      | some s =>
        rw [Option.bind_some] at this
        rw [Option.bind_some, this, Option.map_some]
        rfl
    refine ⟨_, _, (insertLevel_extend (by omega) hex (by show level ≤ r.height + 1; omega)).trans hfin, Or.inr ⟨rfl, [[⟨r.calls + 1, 0, W, [(hk, v), (lk, r.node)]⟩]], lk, ?_, ?_, Nat.le_refl _, rfl, Or.inr rfl, trivial, ?_⟩⟩
    · refine ⟨by show r.height + 1 + 1 = _; simp; omega, ?_, ?_, by simp [ptrs], by simp [ptrs, r1], fun q hq => ?_⟩
      · refine ⟨⟨rfl, Nat.le_refl _, Nat.le_refl _, trivial⟩, ?_, by simp, by simp, trivial⟩
        intro n hn
        simp only [List.mem_singleton] at hn
        subst hn
        refine ⟨by simp; omega, by simpa [Desc] using hlt, ?_, by simpa using ⟨hv, hn0⟩⟩
        simp
        omega
      · intro N hN n hn
        simp only [List.mem_singleton] at hN
        subst hN
        simp only [List.mem_singleton] at hn
        subst hn
        exact put_self _ _ _
      · have hq' : r.calls + 1 < q := hq
        show put r1.heap _ _ q = none
        rw [put_ne _ (by omega), hh q (by omega)]
        exact h.fresh q (by omega)
    · refine ⟨fun q hq => ?_, fun q hq => Or.inr ?_, by simp [ptrs], by show r.calls ≤ r.calls + 1; omega⟩
      · have : q ≠ r.calls + 1 := by simpa [ptrs] using hq
        show put r1.heap _ _ q = _
        rw [put_ne _ this, hh q this]
      · have : q = r.calls + 1 := by simpa [ptrs] using hq
        omega
    · intro big h1 h2 _ m hm
      simp only [List.mem_singleton] at hm
      subst hm
      exact big_insert hH (a := []) (b := [(lk, r.node)]) (k := hk) (v := v) (fun h => by simp at h) h1 (by intro e he; simp at he; subst he; exact h2)
  · refine ⟨{ r with calls := r.calls + 1 }, -12, ?_, Or.inl ⟨rfl, rfl, rfl, rfl, by show r.calls ≤ r.calls + 1; omega, r.calls, Nat.le_refl _, by show r.calls < r.calls + 1; omega, by simpa using hm⟩⟩
    have hex : extend K mem r = some ({ r with calls := r.calls + 1 }, false) := by
      unfold extend alloc
      rw [if_neg hm]
    rw [insertLevel, if_pos (by omega), hex, Option.bind_some]
    simp

theorem Link.single {c : Sp} {pre post : List GN} {n : GN} (h : Link [c] (pre ++ n :: post)) : pre = [] ∧ post = [] := by
  cases pre with
  | nil =>
    obtain ⟨_, _, _, h⟩ := h
    exact ⟨rfl, Link.nil_left h⟩
  | cons x pre =>
    have := Link.nil_left h.2.2.2
    simp at this

theorem St.others {level : Nat} {r : Root} {pre post : List GN} {n : GN} {rest : List (List GN)} (h : St K W level r ((pre ++ n :: post) :: rest)) :
    ∀ m ∈ pre ++ post, m.es ≠ [] := by
  intro m hm
  by_cases hr : rest = []
  · subst hr
    obtain ⟨rfl, rfl⟩ := Link.single h.chain.1
    simp at hm
  · exact h.chain.2.2.1 hr m (by simp at hm ⊢; grind)

theorem insert_node {H : Nat} (hKH : K = 2 * H) (hH : 2 ≤ H) {rest : List (List GN)} (hup : Up H K W mem ops rest) {fuel level : Nat} {r : Root} {pre post : List GN} {n : GN}
    {k v : Nat} {key : Key} {a b : List (Nat × Nat)} (h0 : 0 < level) (hfuel : rest.length + 3 ≤ fuel)
    (h : St K W level r ((pre ++ n :: post) :: rest)) (hlo : n.lo ≤ k) (hhi : k < n.hi) (he : n.es = a ++ b) (ha : ∀ x ∈ a, k < x.1)
    (hb : ∀ e, b.head? = some e → e.1 < k) (hv : v ≠ 0) (hkey : Stable r ((pre ++ n :: post) :: rest) key k)
    (hbal : Bal H (shape ((pre ++ n :: post) :: rest))) :
    ∃ r' ret, insertLevel K mem ops fuel r level key v = some (r', ret) ∧
      (ret = -12 ∧ Refused mem r r' ∨
       ret = 0 ∧ ∃ L' rest', St K W level r' (L' :: rest') ∧ Ext r ((pre ++ n :: post) :: rest) r' (L' :: rest') ∧
        kidsOf L' = kidsOf pre ++ kids n.hi (a ++ (k, v) :: b) ++ kidsOf post ∧ flat L' = flat pre ++ (a ++ (k, v) :: b) ++ flat post ∧
        Bal H (shape (L' :: rest')) ∧ Keep H v b.head? (pre ++ n :: post) L') := by
  obtain ⟨fuel, rfl⟩ : ∃ f, fuel = f + 2 := ⟨fuel - 2, by omega⟩
  have ok := h.chain.2.1 n (by simp)
  have hkr : key.read r.heap = some k := hkey _ fun _ _ _ => rfl
  by_cases hl : n.es.length < K
  · obtain ⟨e1, e2⟩ := insert_room (fuel := fuel + 1) (mem := mem) (ops := ops) h0 h hlo hhi he ha hb hv hl hkr
    refine ⟨_, _, e1, Or.inr ⟨rfl, _, _, e2, ⟨fun q hq => ?_, fun q hq => Or.inl ?_, fun q hq => ?_, Nat.le_refl _⟩, ?_, ?_, ?_, ?_⟩⟩
    · exact put_ne _ (by rintro rfl; exact hq (by rw [ptrs_cons]; simp))
    · rwa [ptrs_replace _ _ n _ _ (by rfl)] at hq
    · rwa [ptrs_replace _ _ n _ _ (by rfl)]
    · simp [kidsOf_append, kidsOf_cons]
    · simp [flat_append, flat_cons]
    · rw [bal_cons] at hbal ⊢
      refine ⟨hbal.1.mono fun q hq => ?_, hbal.2⟩
      rw [bigOf_map] at hq ⊢
      obtain ⟨m, h1, h2, h3⟩ := hq
      rcases List.mem_append.mp h1 with h1 | h1
      · exact ⟨m, by simp [h1], h2, h3⟩
      · rcases List.mem_cons.mp h1 with rfl | h1
        · exact ⟨⟨m.p, m.lo, m.hi, a ++ (k, v) :: b⟩, by simp, h2, by rw [he] at h3; simp at h3 ⊢; omega⟩
        · exact ⟨m, by simp [h1], h2, h3⟩
    · intro big h1 h2 h3 m hm
      rcases List.mem_append.mp hm with hm | hm
      · exact h3 m (by simp [hm])
      · rcases List.mem_cons.mp hm with rfl | hm
        · exact big_insert hH (by rw [← he]; exact h3 n (by simp)) h1 h2
        · exact h3 m (by simp [hm])
  · have hlen : n.es.length = 2 * H := by have := ok.len; omega
    -- the two halves
    obtain ⟨x, y, hxy, hx, hy⟩ : ∃ x y, n.es = x ++ y ∧ x.length = H ∧ y.length = H :=
      ⟨n.es.take H, n.es.drop H, (List.take_append_drop _ _).symm, by simp; omega, by simp; omega⟩
    obtain ⟨x', ⟨hk, xv⟩, hx'⟩ := last_split (l := x) (by intro hh; rw [hh] at hx; simp at hx; omega)
    obtain ⟨y', ⟨lk, yv⟩, hy'⟩ := last_split (l := y) (by intro hh; rw [hh] at hy; simp at hy; omega)
    have hx'l : x'.length = H - 1 := by rw [hx'] at hx; simp at hx; omega
    have hd := ok.desc
    have hkmem : (hk, xv) ∈ n.es := by rw [hxy, hx']; simp
    have lkmem : (lk, yv) ∈ n.es := by rw [hxy, hy']; simp
    have hkr2 := ok.key _ hkmem
    have lkr2 := ok.key _ lkmem
    have hlkhk : lk < hk := by
      rw [hxy] at hd
      exact hd.cross (hk, xv) (by rw [hx']; simp) (lk, yv) (by rw [hy']; simp)
    simp only at hkr2 lkr2
    have hdx : Desc x := by rw [hxy] at hd; exact hd.left
    have hdy : Desc y := by rw [hxy] at hd; exact hd.right
    have hxge : ∀ z ∈ x, hk ≤ z.1 := by
      intro z hz
      rw [hx'] at hz hdx
      rcases List.mem_append.mp hz with hz | hz
      · exact Nat.le_of_lt (hdx.cross z hz (hk, xv) (by simp))
      · simp at hz; subst hz; exact Nat.le_refl _
    have hylt : ∀ z ∈ y, z.1 < hk := fun z hz => by
      rw [hxy] at hd
      exact hd.cross (hk, xv) (by rw [hx']; simp) z hz
    have hyge : ∀ z ∈ y, lk ≤ z.1 := by
      intro z hz
      rw [hy'] at hz hdy
      rcases List.mem_append.mp hz with hz | hz
      · exact Nat.le_of_lt (hdy.cross z hz (lk, yv) (by simp))
      · simp at hz; subst hz; exact Nat.le_refl _
    -- the pass up to the split
    obtain ⟨A0, c0, B0, f1, f2, f3, f4, f5, f6⟩ := locate h.chain hlo hhi
    have hfp := findParent_foc h0 h f1
    have hq := h.hold.head n (by simp)
    have hle : ∀ e, b.head? = some e → e.1 ≤ k := fun e hh => Nat.le_of_lt (hb e hh)
    have hns : ¬ (r.height < level) := by have := h.height; simp only [List.length_cons] at this; omega
    have hval : ∀ x ∈ a ++ b, x.2 ≠ 0 := fun x hx => ok.val x (by rw [he]; exact hx)
    have hnf : ¬ (a.length < (a ++ b).length ∧ keyAt (mk K (a ++ b)) a.length = some k) := by
      cases b with
      | nil => simp
      | cons e b =>
        rw [keyAt_mk rfl]
        intro hx
        have := hb e rfl
        have := hx.2
        simp only [Option.some.injEq] at this
        omega
    have hpass : insertLevel K mem ops (fuel + 2) r level key v =
        match alloc K mem r with
        | (r, 0) => some (r, -12)
        | (r, q + 1) =>
          (insertLevel K mem ops (fuel + 1) r (level + 1) (.slot n.p (H - 1)) (q + 1)).bind fun (r, ret) =>
          if ret ≠ 0 then (free r (q + 1)).map fun r => (r, ret)
          else
            (r.heap (q + 1)).bind fun nb => (r.heap n.p).bind fun b =>
            (split (2 * H) nb b).bind fun (nb, b) =>
            insertLevel K mem ops (fuel + 1) { r with heap := put (put r.heap (q + 1) (some nb)) n.p (some b) } level key v := by
      rw [insertLevel, if_neg hns, Option.bind_some]
      try dsimp only
      rw [if_neg (by simp), hkr, Option.bind_some, hfp, Option.bind_some, ← f4]
      try dsimp only
      rw [hq, he, Option.bind_some]
      try dsimp only
      rw [findIndex_mk K k ha hle, fillIndex_mk hval (by simp), mk_length (by rw [← he]; omega), if_neg hnf, if_neg (by rw [← he]; omega),
        ← he, hlen, show 2 * H / 2 - 1 = H - 1 from by omega]
      rfl
    rw [hpass]
    unfold alloc
    by_cases hm : ¬ mem r.calls
    · rw [if_neg hm]
      exact ⟨_, _, rfl, Or.inl ⟨rfl, rfl, rfl, rfl, by show r.calls ≤ r.calls + 1; omega, r.calls, Nat.le_refl _, by show r.calls < r.calls + 1; omega, by simpa using hm⟩⟩
    rw [Classical.not_not] at hm
    rw [if_pos hm]
    try dsimp only
    let r1 : Root := { r with heap := put r.heap (r.calls + 1) (some (List.replicate K (0, 0))), calls := r.calls + 1 }
    have hlow := h.low
    have hplow : n.p ≤ r.calls := (hlow n.p (by rw [ptrs_cons]; simp)).2
    have hpne : n.p ≠ 0 := by have := (hlow n.p (by rw [ptrs_cons]; simp)).1; omega
    have hqn : r.heap (r.calls + 1) = none := h.fresh _ (by omega)
    have ht := h.tail h0
    have hqr : r.calls + 1 ∉ ptrs rest := fun hq => by have := (ht.low _ hq).2; omega
    have hnr := h.apart (n := n) (by simp)
    have hpn : n.p ≠ r.calls + 1 := by omega
    have h1 : St K W (level + 1) r1 rest :=
      { height := ht.height
        chain := ht.chain
        hold := ht.hold.congr fun q hq => put_ne _ (by rintro rfl; exact hqr hq)
        nodup := ht.nodup
        low := fun q hq => ⟨(ht.low q hq).1, by have := (ht.low q hq).2; show q ≤ r.calls + 1; omega⟩
        fresh := fun q hq => by
          have hq' : r.calls + 1 < q := hq
          show put _ _ _ q = none
          rw [put_ne _ (by omega)]
          exact h.fresh q (by omega) }
    obtain ⟨A, c, B, g1, g2, g3, g4, g5, g6⟩ := locate (k := hk) h.chain hkr2.1 hkr2.2
    have hst1 : Stable r1 rest (.slot n.p (H - 1)) hk := by
      intro h' hh
      have : h' n.p = some (mk K (x' ++ (hk, xv) :: y)) := by
        rw [hh n.p hnr (by show n.p ≤ r.calls + 1; omega)]
        show put _ _ _ n.p = _
        rw [put_ne _ hpn, hq, hxy, hx']
        simp
      rw [Key.read, this, Option.bind_some, keyAt_mk hx'l.symm]
    have htop1 : rest = [] → r1.node ≠ 0 ∧ ∃ a x, r1.heap r1.node = some (mk K (a ++ [(lk, x)])) ∧ ∀ y ∈ a ++ [(lk, x)], y.2 ≠ 0 := by
      intro hr
      subst hr
      have hroot : n.p = r.node := by
        cases g1 with
        | top => exact g4
      refine ⟨by show r.node ≠ 0; omega, x ++ y', yv, ?_, ?_⟩
      · show put _ _ _ r.node = _
        rw [← hroot, put_ne _ hpn, hq, hxy, hy']
        simp
      · intro z hz
        exact ok.val z (by rw [hxy, hy']; simpa using hz)
    obtain ⟨r2, ret, e2, hres⟩ := hup (level + 1) r1 A c B hk (r.calls + 1) (.slot n.p (H - 1)) (fuel + 1) lk (by omega) (by omega) h1 g1 (by omega) hlkhk (by omega) htop1 hst1 (bal_cons.mp hbal).2
    rw [e2, Option.bind_some]
    try dsimp only
    rcases hres with ⟨rfl, hh2, hn2, hh2', hc2⟩ | ⟨rfl, rest', lo', h2, x2, hlo', hsp, hor, hbal2, hbig2⟩
    · rw [if_pos (by omega)]
      have hq2 : r2.heap (r.calls + 1) = some (List.replicate K (0, 0)) := by
        rw [hh2]; exact put_self _ _ _
      unfold free
      rw [hq2]
      refine ⟨_, _, rfl, Or.inl ⟨rfl, ?_, hn2, hh2', ?_⟩⟩
      · show put r2.heap _ none = r.heap
        rw [hh2]
        funext z
        by_cases hz : z = r.calls + 1
        · subst hz; rw [put_self, hqn]
        · rw [put_ne _ hz]; exact put_ne _ hz
      · obtain ⟨hc2, c2, hc3, hc4, hc5⟩ := hc2
        have hc2' : r.calls + 1 ≤ r2.calls := hc2
        have hc3' : r.calls + 1 ≤ c2 := hc3
        exact ⟨by show r.calls ≤ r2.calls; omega, c2, by omega, hc4, hc5⟩
    · rw [if_neg (by omega)]
      have keyread : ∀ (r2 : Root) (rest' : List (List GN)), Ext r1 rest r2 rest' →
          key.read (put (put r2.heap (r.calls + 1) (some (mk K x))) n.p (some (mk K y))) = some k := by
        intro r2 rest' x2
        refine hkey _ fun q hq hqc => ?_
        rw [ptrs_cons] at hq
        simp only [List.mem_append, not_or] at hq
        have hqp : q ≠ n.p := by rintro rfl; exact hq.1 (by simp)
        rw [put_ne _ hqp, put_ne _ (by omega), x2.same q fun h3 => ?_]
        · exact put_ne _ (by omega)
        · rcases x2.new _ h3 with h | h
          · exact hq.2 h
          · exact absurd h (by show ¬ (r.calls + 1 < q); omega)
      have finish : ∀ (r2 : Root) (rest' : List (List GN)) (lo' : Nat), St K W (level + 1) r2 rest' → Ext r1 rest r2 rest' → lo' ≤ lk →
          spans r2.node W rest' = A ++ ⟨r.calls + 1, hk, c.hi⟩ :: ⟨c.p, lo', hk⟩ :: B → (k < hk → lo' ≤ k) →
          Bal H (shape rest') → (∀ big, big (r.calls + 1) → big c.p → BigLv H big rest → BigLv H big rest') → key.read (put (put r2.heap (r.calls + 1) (some (mk K x))) n.p (some (mk K y))) = some k ∧
          ∃ r' ret, insertLevel K mem ops (fuel + 1) { r2 with heap := put (put r2.heap (r.calls + 1) (some (mk K x))) n.p (some (mk K y)) } level key v = some (r', ret) ∧
            (ret = -12 ∧ Refused mem r r' ∨ ret = 0 ∧ ∃ L' rest', St K W level r' (L' :: rest') ∧ Ext r ((pre ++ n :: post) :: rest) r' (L' :: rest') ∧
              kidsOf L' = kidsOf pre ++ kids n.hi (a ++ (k, v) :: b) ++ kidsOf post ∧ flat L' = flat pre ++ (a ++ (k, v) :: b) ++ flat post ∧
              Bal H (shape (L' :: rest')) ∧ Keep H v b.head? (pre ++ n :: post) L') := by
        clear hlo' hsp x2 h2 e2 hbal2 hbig2
        intro r2 rest' lo' h2 x2 hlo' hsp hlok hbal2 hbig2
        have hqr' : r.calls + 1 ∉ ptrs rest' := fun hq => by
          rcases x2.new _ hq with h | h
          · exact hqr h
          · exact absurd h (by show ¬ (r.calls + 1 < r.calls + 1); omega)
        have hold' : ∀ q, q ∉ ptrs rest → q ≤ r.calls + 1 → q ∉ ptrs rest' := fun q h1 h2 h3 => by
          rcases x2.new _ h3 with h | h
          · exact h1 h
          · exact absurd h (by show ¬ (r.calls + 1 < q); omega)
        have hnr' : n.p ∉ ptrs rest' := hold' _ hnr (by omega)
        let r3 : Root := { r2 with heap := put (put r2.heap (r.calls + 1) (some (mk K x))) n.p (some (mk K y)) }
        let nx : GN := ⟨r.calls + 1, hk, n.hi, x⟩
        let ny : GN := ⟨n.p, lo', hk, y⟩
        have hr2c : r.calls + 1 ≤ r2.calls := x2.calls
        have hdist := h.distinct
        have hmemlow : ∀ m ∈ pre ++ n :: post, m.p ≤ r.calls := fun m hm => (hlow m.p (by rw [ptrs_cons]; exact List.mem_append_left _ (List.mem_map.mpr ⟨m, hm, rfl⟩))).2
        have hheap3 : ∀ q, q ≠ r.calls + 1 → q ≠ n.p → r3.heap q = r2.heap q := fun q h1 h2 => by
          show put (put _ _ _) _ _ q = _
          rw [put_ne _ h2, put_ne _ h1]
        have hrest'ne : rest' ≠ [] := by
          intro h0; subst h0
          rw [spans] at hsp
          have := congrArg List.length hsp
          simp at this
          omega
        have okx : nx.Ok K := ⟨by show x.length ≤ K; omega, hdx, fun z hz => ⟨hxge z hz, (ok.key z (by rw [hxy]; simp [show z ∈ x from hz])).2⟩,
          fun z hz => ok.val z (by rw [hxy]; simp [show z ∈ x from hz])⟩
        have oky : ny.Ok K := ⟨by show y.length ≤ K; omega, hdy, fun z hz => ⟨Nat.le_trans hlo' (hyge z hz), hylt z hz⟩,
          fun z hz => ok.val z (by rw [hxy]; simp [show z ∈ y from hz])⟩
        have hxne : x ≠ [] := by intro hh; rw [hh] at hx; simp at hx; omega
        have hyne : y ≠ [] := by intro hh; rw [hh] at hy; simp at hy; omega
        have hptr3 : ∀ q, q ∈ ptrs ((pre ++ nx :: ny :: post) :: rest') ↔ q = r.calls + 1 ∨ q ∈ (pre ++ n :: post).map GN.p ∨ q ∈ ptrs rest' := by
          intro q
          rw [ptrs_cons]
          simp only [List.map_append, List.map_cons, List.mem_append, List.mem_cons, nx, ny]
          grind
        have h3 : St K W level r3 ((pre ++ nx :: ny :: post) :: rest') :=
          { height := by have := h2.height; simp only [List.length_cons]; show r2.height + 1 = _; omega
            chain := by
              refine ⟨?_, ?_, ?_, fun hr => absurd hr hrest'ne, ?_⟩
              · show Link (spans r2.node W rest') _
                rw [hsp]
                exact g2.append ⟨rfl, Nat.le_refl _, g6, g4, Nat.le_refl _, Nat.le_refl _, g3⟩
              · intro m hm
                rcases List.mem_append.mp hm with hm | hm
                · exact h.chain.2.1 m (by simp [hm])
                · rcases List.mem_cons.mp hm with rfl | hm
                  · exact okx
                  · rcases List.mem_cons.mp hm with rfl | hm
                    · exact oky
                    · exact h.chain.2.1 m (by simp [hm])
              · intro _ m hm
                rcases List.mem_append.mp hm with hm | hm
                · exact h.others m (by simp [hm])
                · rcases List.mem_cons.mp hm with rfl | hm
                  · exact hxne
                  · rcases List.mem_cons.mp hm with rfl | hm
                    · exact hyne
                    · exact h.others m (by simp [hm])
              · have := h2.chain
                rwa [show (level + 1 == 1) = false from by simp; omega] at this
            hold := by
              refine Hold.cons (fun m hm => ?_) (h2.hold.congr fun q hq => hheap3 q (by rintro rfl; exact hqr' hq) (by rintro rfl; exact hnr' hq))
              have hother : m ∈ pre ++ post → r3.heap m.p = some (mk K m.es) := fun hm => by
                have hmn : m ∈ pre ++ n :: post := by simp at hm ⊢; grind
                have hml := hmemlow m hmn
                rw [hheap3 _ (by omega) (hdist m hm), x2.same _ (hold' _ (h.apart hmn) (by omega))]
                show put _ _ _ _ = _
                rw [put_ne _ (by omega)]
                exact h.hold.head m hmn
              rcases List.mem_append.mp hm with hm | hm
              · exact hother (by simp [hm])
              · rcases List.mem_cons.mp hm with rfl | hm
                · show put (put _ _ _) _ _ (r.calls + 1) = _
                  rw [put_ne _ (by omega), put_self]
                · rcases List.mem_cons.mp hm with rfl | hm
                  · exact put_self _ _ _
                  · exact hother (by simp [hm])
            nodup := by
              have hd1 := h.nodup
              rw [ptrs_cons] at hd1 ⊢
              obtain ⟨d1, d2, d3⟩ := List.nodup_append.mp hd1
              refine List.nodup_append.mpr ⟨?_, h2.nodup, fun u hu w hw => ?_⟩
              · have : (pre ++ nx :: ny :: post).map GN.p = pre.map GN.p ++ (r.calls + 1) :: (n.p :: post.map GN.p) := by simp [nx, ny]
                rw [this, List.perm_middle.nodup_iff]
                refine List.nodup_cons.mpr ⟨fun hin => ?_, by simpa using d1⟩
                have hin' : r.calls + 1 ∈ (pre ++ n :: post).map GN.p := by simpa using hin
                obtain ⟨m, hm, he⟩ := List.mem_map.mp hin'
                have := hmemlow m hm
                omega
              · rintro rfl
                have : u = r.calls + 1 ∨ u ∈ (pre ++ n :: post).map GN.p := by
                  simp only [List.map_append, List.map_cons, List.mem_append, List.mem_cons, nx, ny] at hu ⊢; grind
                rcases this with rfl | hu
                · exact hqr' hw
                · obtain ⟨m, hm, rfl⟩ := List.mem_map.mp hu
                  exact hold' _ (h.apart hm) (by have := hmemlow m hm; omega) hw
            low := fun q hq => by
              rcases (hptr3 q).mp hq with rfl | hq | hq
              · exact ⟨by omega, hr2c⟩
              · obtain ⟨m, hm, rfl⟩ := List.mem_map.mp hq
                refine ⟨(hlow m.p (by rw [ptrs_cons]; exact List.mem_append_left _ hq)).1, ?_⟩
                have := hmemlow m hm
                show m.p ≤ r2.calls
                omega
              · exact h2.low q hq
            fresh := fun q hq => by
              have hq' : r2.calls < q := hq
              rw [hheap3 q (by omega) (by omega)]
              exact h2.fresh q hq }
        have hx3 : Ext r ((pre ++ n :: post) :: rest) r3 ((pre ++ nx :: ny :: post) :: rest') :=
          { same := fun q hq => by
              rw [hptr3] at hq
              simp only [not_or] at hq
              have hqp : q ≠ n.p := by rintro rfl; exact hq.2.1 (by simp)
              rw [hheap3 q hq.1 hqp, x2.same q hq.2.2]
              show put _ _ _ q = _
              exact put_ne _ hq.1
            new := fun q hq => by
              rcases (hptr3 q).mp hq with rfl | hq | hq
              · exact Or.inr (by omega)
              · exact Or.inl (by rw [ptrs_cons]; exact List.mem_append_left _ hq)
              · rcases x2.new q hq with h | h
                · exact Or.inl (by rw [ptrs_cons]; exact List.mem_append_right _ h)
                · exact Or.inr (by have h' : r.calls + 1 < q := h; omega)
            old := fun q hq => by
              rw [hptr3]
              rw [ptrs_cons] at hq
              rcases List.mem_append.mp hq with hq | hq
              · exact Or.inr (Or.inl hq)
              · exact Or.inr (Or.inr (x2.old q hq))
            calls := by show r.calls ≤ r2.calls; omega }
        have hkr3 : key.read r3.heap = some k := keyread r2 rest' x2
        -- what storing into one of the two halves gives
        have fin : ∀ (r4 : Root) (L4 : List GN), (∀ q, q ∉ L4.map GN.p → r4.heap q = r3.heap q) → r4.calls = r3.calls →
            L4.map GN.p = (pre ++ nx :: ny :: post).map GN.p →
            Ext r ((pre ++ n :: post) :: rest) r4 (L4 :: rest') := by
          intro r4 L4 hs hc hm
          have hpe : ptrs (L4 :: rest') = ptrs ((pre ++ nx :: ny :: post) :: rest') := by rw [ptrs_cons, ptrs_cons, hm]
          refine ⟨fun q hq => ?_, fun q hq => hx3.new q (by rwa [hpe] at hq), fun q hq => by rw [hpe]; exact hx3.old q hq, by rw [hc]; exact hx3.calls⟩
          have hq' := hq
          rw [ptrs_cons] at hq'
          rw [hs q fun hi => hq' (List.mem_append_left _ hi)]
          exact hx3.same q (by rwa [hpe] at hq)
        have balfin : ∀ (nx' ny' : GN), nx'.p = r.calls + 1 → ny'.p = n.p → 2 ≤ nx'.es.length → 2 ≤ ny'.es.length →
            Bal H (shape ((pre ++ nx' :: ny' :: post) :: rest')) := by
          intro nx' ny' p1 p2 l1 l2
          refine bal_cons.mpr ⟨hbig2 _ (bigOf_map.mpr ⟨nx', by simp, p1, l1⟩) (bigOf_map.mpr ⟨ny', by simp, by rw [p2, g4], l2⟩) ((bal_cons.mp hbal).1.mono fun q hq => ?_), hbal2⟩
          rw [bigOf_map] at hq ⊢
          obtain ⟨m, h1, h2, h3⟩ := hq
          rcases List.mem_append.mp h1 with h1 | h1
          · exact ⟨m, by simp [h1], h2, h3⟩
          · rcases List.mem_cons.mp h1 with rfl | h1
            · exact ⟨ny', by simp, by rw [p2, h2], l2⟩
            · exact ⟨m, by simp [h1], h2, h3⟩
        have keepfin : ∀ (nx' ny' : GN), (∀ big : Nat → Prop, big v → (∀ e, b.head? = some e → big e.2) → BigOk H big (x.map Prod.snd) → BigOk H big (y.map Prod.snd) →
            BigOk H big (nx'.es.map Prod.snd) ∧ BigOk H big (ny'.es.map Prod.snd)) → Keep H v b.head? (pre ++ n :: post) (pre ++ nx' :: ny' :: post) := by
          intro nx' ny' hxy' big h1 h2 h3 m hm
          have hxy2 := h3 n (by simp)
          rw [hxy] at hxy2
          obtain ⟨hbx, hby⟩ := big_halves hH hx hy hxy2
          obtain ⟨h4, h5⟩ := hxy' big h1 h2 hbx hby
          rcases List.mem_append.mp hm with hm | hm
          · exact h3 m (by simp [hm])
          · rcases List.mem_cons.mp hm with rfl | hm
            · exact h4
            · rcases List.mem_cons.mp hm with rfl | hm
              · exact h5
              · exact h3 m (by simp [hm])
        refine ⟨hkr3, ?_⟩
        show ∃ r' ret, insertLevel K mem ops (fuel + 1) r3 level key v = some (r', ret) ∧ _
        have lower : ∀ a2, a = x ++ a2 → y = a2 ++ b →
            ∃ r' ret, insertLevel K mem ops (fuel + 1) r3 level key v = some (r', ret) ∧
            (ret = -12 ∧ Refused mem r r' ∨ ret = 0 ∧ ∃ L' rest', St K W level r' (L' :: rest') ∧ Ext r ((pre ++ n :: post) :: rest) r' (L' :: rest') ∧
              kidsOf L' = kidsOf pre ++ kids n.hi (a ++ (k, v) :: b) ++ kidsOf post ∧ flat L' = flat pre ++ (a ++ (k, v) :: b) ++ flat post ∧
              Bal H (shape (L' :: rest')) ∧ Keep H v b.head? (pre ++ n :: post) L') := by
          intro a2 e1 e2
          have hkhk : k < hk := ha (hk, xv) (by rw [e1, hx']; simp)
          have h3' : St K W level r3 (((pre ++ [nx]) ++ ny :: post) :: rest') := by
            rw [show (pre ++ [nx]) ++ ny :: post = pre ++ nx :: ny :: post from by simp]; exact h3
          obtain ⟨e3, e4⟩ := insert_room (fuel := fuel) (mem := mem) (ops := ops) (n := ny) (a := a2) (b := b) h0 h3' (hlok hkhk) hkhk e2
            (fun z hz => ha z (by rw [e1]; simp [hz])) hb hv (by show y.length < K; omega) hkr3
          refine ⟨_, _, e3, Or.inr ⟨rfl, _, _, e4, fin _ _ (fun q hq => put_ne _ ?_) rfl (by simp [ny]), ?_, ?_, ?_, ?_⟩⟩
          · rintro rfl; exact hq (by simp)
          · simp only [kidsOf_append, kidsOf_cons, nx, ny, e1, List.append_assoc, kids_append]
            rw [hx', hiAt_append]
            simp [kidsOf, hiAt]
          · simp [flat_append, flat_cons, nx, ny, e1, flat]
          · rw [show (pre ++ [nx]) ++ (⟨ny.p, ny.lo, ny.hi, a2 ++ (k, v) :: b⟩ : GN) :: post = pre ++ nx :: ⟨ny.p, ny.lo, ny.hi, a2 ++ (k, v) :: b⟩ :: post from by simp]
            refine balfin _ _ rfl rfl (by show 2 ≤ x.length; omega) ?_
            have := congrArg List.length e2
            simp at this ⊢; omega
          · rw [show (pre ++ [nx]) ++ (⟨ny.p, ny.lo, ny.hi, a2 ++ (k, v) :: b⟩ : GN) :: post = pre ++ nx :: ⟨ny.p, ny.lo, ny.hi, a2 ++ (k, v) :: b⟩ :: post from by simp]
            exact keepfin _ _ fun big h1 h2 h3 h4 => ⟨h3, big_insert hH (by rw [← e2]; exact h4) h1 h2⟩
        rcases List.append_eq_append_iff.mp (he.symm.trans hxy) with ⟨b1, e1, e2⟩ | ⟨a2, e1, e2⟩
        · cases b1 with
          | nil => exact lower [] (by simpa using e1.symm) (by simpa using e2.symm)
          | cons e b1 =>
            obtain ⟨z, w, hz⟩ := last_split (l := e :: b1) (by simp)
            have hw : w = (hk, xv) := by
              have h5 : x' ++ [(hk, xv)] = (a ++ z) ++ [w] := by rw [← hx', e1, hz]; simp
              have := (List.append_inj' h5 rfl).2
              simpa using this.symm
            have hin : (hk, xv) ∈ b := by rw [e2, hz, hw]; simp
            have hdb : Desc b := by have := ok.desc; rw [he] at this; exact this.right
            have hkk : hk < k := below_of_head hdb hb _ hin
            obtain ⟨e3, e4⟩ := insert_room (fuel := fuel) (mem := mem) (ops := ops) (n := nx) (a := a) (b := e :: b1) h0 h3 (Nat.le_of_lt hkk) hhi e1
              ha (fun u hu => hb u (by rw [e2]; simpa using hu)) hv (by show x.length < K; omega) hkr3
            refine ⟨_, _, e3, Or.inr ⟨rfl, _, _, e4, fin _ _ (fun q hq => put_ne _ ?_) rfl (by simp [nx]), ?_, ?_, ?_, ?_⟩⟩
            · rintro rfl; exact hq (by simp)
            · simp only [kidsOf_append, kidsOf_cons, nx, ny, e2, List.append_assoc]
              rw [show a ++ (k, v) :: (e :: b1 ++ y) = (a ++ (k, v) :: (e :: b1)) ++ y from by simp, kids_append n.hi (a ++ (k, v) :: (e :: b1)) y,
                show hiAt n.hi (a ++ (k, v) :: e :: b1) = hk from by
                  rw [hz, hw, show a ++ (k, v) :: (z ++ [(hk, xv)]) = (a ++ (k, v) :: z) ++ [(hk, xv)] from by simp, hiAt_append]; rfl]
              simp
            · simp [flat_append, flat_cons, nx, ny, e2]
            · refine balfin _ _ rfl rfl ?_ (by show 2 ≤ y.length; omega)
              have := congrArg List.length e1
              simp at this ⊢; omega
            · exact keepfin _ _ fun big h1 h2 h3 h4 => ⟨big_insert hH (by rw [← e1]; exact h3) h1 (fun u hu => h2 u (by rw [e2]; simpa using hu)), h4⟩
        · exact lower a2 e1 e2
      have hqr' : r.calls + 1 ∉ ptrs rest' := fun hq => by
        rcases x2.new _ hq with h | h
        · exact hqr h
        · exact absurd h (by show ¬ (r.calls + 1 < r.calls + 1); omega)
      have hold' : ∀ q, q ∉ ptrs rest → q ≤ r.calls + 1 → q ∉ ptrs rest' := fun q h1 h2 h3 => by
        rcases x2.new _ h3 with h | h
        · exact h1 h
        · exact absurd h (by show ¬ (r.calls + 1 < q); omega)
      have hnr' : n.p ∉ ptrs rest' := hold' _ hnr (by omega)
      have hq2 : r2.heap (r.calls + 1) = some (List.replicate K (0, 0)) := by
        rw [x2.same _ hqr']; exact put_self _ _ _
      have hp2 : r2.heap n.p = some (mk K (x ++ y)) := by
        rw [x2.same _ hnr']
        show put _ _ _ n.p = _
        rw [put_ne _ hpn, hq, hxy]
      have hsplit := split_mk hKH hx hy
      rw [← hxy, hlen, hxy] at hsplit
      rw [hq2, Option.bind_some, hp2, Option.bind_some, hsplit, Option.bind_some]
      try dsimp only
      by_cases hcase : ¬ (k < hk ∧ k < lo')
      · exact (finish r2 rest' lo' h2 x2 hlo' hsp (fun hh => by omega) hbal2 hbig2).2
      · -- the root was just made and its second key is lowered on the way
        rw [Classical.not_not] at hcase
        have hck : c.lo ≤ k := by omega
        have hrest' : rest' = [[⟨r2.node, 0, W, [(hk, r.calls + 1), (lk, c.p)]⟩]] := by
          rcases hor with h | h
          · omega
          · exact h
        have hor := hrest'
        subst hrest'
        have hsp0 : [(⟨r.calls + 1, hk, W⟩ : Sp), ⟨c.p, lk, hk⟩] = A ++ ⟨r.calls + 1, hk, c.hi⟩ :: ⟨c.p, lo', hk⟩ :: B := by
          rw [← hsp]; rfl
        have hAB : A = [] ∧ B = [] := by
          have := congrArg List.length hsp0
          simp at this
          exact ⟨List.length_eq_zero_iff.mp (by omega), List.length_eq_zero_iff.mp (by omega)⟩
        obtain ⟨rfl, rfl⟩ := hAB
        simp only [List.nil_append, List.cons.injEq, Sp.mk.injEq, true_and, and_true] at hsp0
        have hpt : ptrs [[(⟨r2.node, 0, W, [(hk, r.calls + 1), (lk, c.p)]⟩ : GN)]] = [r2.node] := by simp [ptrs]
        have htq : r2.node ≠ r.calls + 1 := fun hh => hqr' (by rw [hpt, hh]; simp)
        have htn : r2.node ≠ n.p := fun hh => hnr' (by rw [hpt, hh]; simp)
        have oktop := h2.chain.2.1 ⟨r2.node, 0, W, [(hk, r.calls + 1), (lk, c.p)]⟩ (by simp)
        have hheld : r2.heap r2.node = some (mk K [(hk, r.calls + 1), (lk, c.p)]) := h2.hold.head ⟨r2.node, 0, W, [(hk, r.calls + 1), (lk, c.p)]⟩ (by simp)
        let r2' : Root := { r2 with heap := put r2.heap r2.node (some (mk K [(hk, r.calls + 1), (k, c.p)])) }
        have okn : GN.Ok K ⟨r2.node, 0, W, [(hk, r.calls + 1), (k, c.p)]⟩ := by
          have h1 := oktop.key (hk, r.calls + 1) (by simp)
          have h2 := oktop.val (lk, c.p) (by simp)
          simp only at h1 h2
          refine ⟨by simp; omega, by simp [Desc]; omega, ?_, ?_⟩
          · simp; omega
          · simp; exact h2
        have h2' : St K W (level + 1) r2' [[⟨r2.node, 0, W, [(hk, r.calls + 1), (k, c.p)]⟩]] :=
          st_store (pre := []) (post := []) (n := ⟨r2.node, 0, W, [(hk, r.calls + 1), (lk, c.p)]⟩) (n' := ⟨r2.node, 0, W, [(hk, r.calls + 1), (k, c.p)]⟩)
            h2 rfl rfl rfl okn (by simp) (by simp)
        have hpt' : ptrs [[(⟨r2.node, 0, W, [(hk, r.calls + 1), (k, c.p)]⟩ : GN)]] = [r2.node] := by simp [ptrs]
        have x2' : Ext r1 rest r2' [[⟨r2.node, 0, W, [(hk, r.calls + 1), (k, c.p)]⟩]] := by
          refine ⟨fun q hq => ?_, fun q hq => x2.new q ?_, fun q hq => ?_, x2.calls⟩
          · rw [hpt'] at hq
            show put _ _ _ q = _
            rw [put_ne _ (by simpa using hq)]
            exact x2.same q (by rw [hpt]; exact hq)
          · rw [hpt]; rwa [hpt'] at hq
          · rw [hpt', ← hpt]; exact x2.old q hq
        have hfin := finish r2' _ k h2' x2' (by omega) (by rw [← hsp0.1]; rfl) (fun _ => Nat.le_refl _) trivial (fun big b1 b2 b3 => by
          have := hbig2 big b1 b2 b3
          intro m hm
          simp only [List.mem_singleton] at hm
          subst hm
          exact this ⟨r2.node, 0, W, [(hk, r.calls + 1), (lk, c.p)]⟩ (by simp))
        obtain ⟨hkr3', hfin⟩ := hfin
        have hkr3 := keyread r2 _ x2
        have hheq : put (put (put r2.heap (r.calls + 1) (some (mk K x))) n.p (some (mk K y))) r2.node (some (mk K [(hk, r.calls + 1), (k, c.p)])) =
            put (put r2'.heap (r.calls + 1) (some (mk K x))) n.p (some (mk K y)) := by
          funext z
          show put _ _ _ z = put (put (put _ _ _) _ _) _ _ z
          unfold put
          by_cases z1 : z = r2.node
          · rw [if_pos z1, if_neg (by omega), if_neg (by omega), if_pos z1]
          · rw [if_neg z1, if_neg z1]
        have hlen2 : r2.height - level = 1 := by have := h2.height; simp at this; omega
        rw [insertLevel_search (r := { r2 with heap := put (put r2.heap (r.calls + 1) (some (mk K x))) n.p (some (mk K y)) }) (r1 := { r2' with heap := put (put r2'.heap (r.calls + 1) (some (mk K x))) n.p (some (mk K y)) }) (k := k) (p := c.p)
          (by have := h2.height; simp at this; show level ≤ r2.height; omega) rfl hkr3 hkr3']
        · exact hfin
        · unfold findParent
          dsimp only
          rw [hlen2]
          show (((some _ : Option (Heap × Nat)).bind _).map _) = _
          rw [Option.bind_some]
          dsimp only
          have hst := stepDown_miss (K := K) (k := k) (h := put (put r2.heap (r.calls + 1) (some (mk K x))) n.p (some (mk K y))) (p := r2.node) (a := [(hk, r.calls + 1)]) (e := (lk, c.p))
            (by rw [put_ne _ htn, put_ne _ htq, hheld]; rfl) (by simp; omega) (by simp; omega)
          rw [hst]
          show some ({ r2 with heap := put _ _ _ }, _) = _
          rw [show [(hk, r.calls + 1)] ++ [(k, (lk, c.p).2)] = [(hk, r.calls + 1), (k, c.p)] from rfl, hheq]
        · unfold findParent
          dsimp only
          rw [show r2'.height - level = 1 from hlen2]
          show (((some _ : Option (Heap × Nat)).bind _).map _) = _
          rw [Option.bind_some]
          dsimp only
          have hst := stepDown_hit (K := K) (k := k) (h := put (put r2'.heap (r.calls + 1) (some (mk K x))) n.p (some (mk K y))) (p := r2.node) (a := [(hk, r.calls + 1)]) (e := (k, c.p)) (b := [])
            (by rw [put_ne _ htn, put_ne _ htq]; exact put_self _ _ _) (by simp; omega) (by simp; omega) (Nat.le_refl _) (okn.val (k, c.p) (by simp))
          rw [show r2'.node = r2.node from rfl, hst]
          rfl

theorem up_all {H : Nat} (hKH : K = 2 * H) (hH : 2 ≤ H) : ∀ rest, Up H K W mem ops rest
  | [] => up_top hH (by omega)
  | M :: rest => by
    intro level r A c B hk v key fuel lk hlev hfuel h hf hlk hlt hv _ hkey hbal
    cases hf with
    | @down _ A0 c0 B0 pre n post a e b hf hA hB hp h1 h2 h3 h4 he ha hek =>
      simp only at hlk
      obtain ⟨r', ret, e1, hres⟩ := insert_node hKH hH (up_all hKH hH rest) (fuel := fuel) (level := level) (key := key) (v := v) (by omega)
        (by simp only [List.length_cons] at hfuel; omega) h h2 h3 he ha (b := e :: b) (by intro x hx; simp at hx; subst hx; omega) hv hkey hbal
      refine ⟨r', ret, e1, ?_⟩
      rcases hres with hres | ⟨rfl, L', rest', h5, x5, k5, _, b5, w5⟩
      · exact Or.inl hres
      · refine Or.inr ⟨rfl, L' :: rest', e.1, h5, x5, hlk, ?_, Or.inl (Nat.le_refl _), b5, fun big h1 h2 h3 => w5 big h1 (by intro x hx; simp at hx; subst hx; exact h2) h3⟩
        rw [spans, k5, kids_append]
        simp [kids]

end Bfdev.Btree

import Verif.Btree.Insert
/-! `remove_level`: an entry is taken out, a node with few entries joins a neighbour, upwards as far as needed. -/
namespace Bfdev.Btree

variable {H K W : Nat} {ops : Ops}

/-- What a removal does to the memory around. -/
structure RExt (r : Root) (lv : List (List GN)) (r' : Root) (lv' : List (List GN)) : Prop where
  same : ∀ q, q ∉ ptrs lv → r'.heap q = r.heap q
  sub : ∀ q ∈ ptrs lv', q ∈ ptrs lv
  gone : ∀ q ∈ ptrs lv, q ∉ ptrs lv' → r'.heap q = none
  calls : r'.calls = r.calls

/-- The state after a removal that leaves the entries `c` of the node between `pre` and `post`. -/
structure RPost (H K W level : Nat) (r : Root) (lv : List (List GN)) (pre : List GN) (hi : Nat) (c : List (Nat × Nat)) (post : List GN) (r' : Root)
    (lv' : List (List GN)) : Prop where
  st : St K W level r' lv'
  ext : RExt r lv r' lv'
  wide : Wide (spans r'.node W lv') (kidsOf pre ++ kids hi c ++ kidsOf post)
  bal : Bal H (shape lv')
  keep : ∀ big : Nat → Prop, (∀ m ∈ pre ++ post, BigOk H big (m.es.map Prod.snd)) → (c ≠ [] → BigL H big (c.map Prod.snd)) → BigLv H big lv'
  top : lv' = [] → pre = [] ∧ post = [] ∧ level ≠ 1 ∧ ∃ w, c = [w]
  flat : ∀ L R, lv' = L :: R → flat L = flat pre ++ c ++ flat post

/-- The key given to `remove_level`: of the caller, or the slot to be removed. -/
def RKey (key : Key) (k p : Nat) (a : List (Nat × Nat)) (e : Nat × Nat) (b : List (Nat × Nat)) : Prop :=
  key = .mem k ∨ (key = .slot p a.length ∧ e.1 = k ∧ b ≠ [])

/-- Removing the entry for a node of the level below works. -/
def Down (H K W : Nat) (ops : Ops) (fuel : Nat) (R : List (List GN)) : Prop :=
  ∀ level r pre n post a e b k key, 2 ≤ level → St K W level r ((pre ++ n :: post) :: R) → n.es = a ++ e :: b → (∀ x ∈ a, k < x.1) → e.1 ≤ k →
    n.lo ≤ k → k < n.hi → RKey key k n.p a e b → Bal H (shape ((pre ++ n :: post) :: R)) →
    ∃ r' v lv', removeLevel ops fuel r level key = some (r', v) ∧ RPost H K W level r ((pre ++ n :: post) :: R) pre n.hi (a ++ b) post r' lv'

theorem st_heap {level : Nat} {r : Root} {lv : List (List GN)} {h' : Heap} (h : St K W level r lv) (h1 : ∀ q ∈ ptrs lv, h' q = r.heap q)
    (h2 : ∀ q, r.calls < q → h' q = none) : St K W level { r with heap := h' } lv :=
  ⟨h.height, h.chain, h.hold.congr h1, h.nodup, h.low, h2⟩

/-- A level on top of which the levels above have changed. -/
theorem st_lower {level xp : Nat} {r3 : Root} {lv3 : List (List GN)} {L : List GN} (h3 : St K W (level + 1) r3 lv3) (h0 : 0 < level)
    (hlink : Link (spans r3.node W lv3) L) (hok : ∀ n ∈ L, n.Ok K) (hne : lv3 ≠ [] → ∀ n ∈ L, n.es ≠ [])
    (htop : lv3 = [] → level ≠ 1 → ∀ n ∈ L, 2 ≤ n.es.length) (hhold : ∀ n ∈ L, r3.heap n.p = some (mk K n.es)) (hnx : xp ∉ L.map GN.p)
    (hnx3 : xp ∉ ptrs lv3) (hnd : (L.map GN.p).Nodup) (hdis : ∀ n ∈ L, n.p ∉ ptrs lv3) (hlow : ∀ n ∈ L, 0 < n.p ∧ n.p ≤ r3.calls) :
    St K W level { r3 with heap := put r3.heap xp none } (L :: lv3) := by
  refine ⟨?_, ⟨hlink, hok, hne, fun e1 e2 => htop e1 (by simpa using e2), ?_⟩, ?_, ?_, ?_, ?_⟩
  · have := h3.height
    simp only [List.length_cons]
    show r3.height + 1 = _
    omega
  · have := h3.chain
    rwa [show (level + 1 == 1) = false from by simp; omega] at this
  · refine Hold.cons (fun n hn => ?_) (h3.hold.congr fun q hq => put_ne _ (by rintro rfl; exact hnx3 hq))
    show put _ _ _ _ = _
    rw [put_ne _ (by intro e; exact hnx (by rw [← e]; exact List.mem_map.mpr ⟨n, hn, rfl⟩))]
    exact hhold n hn
  · rw [ptrs_cons]
    refine List.nodup_append.mpr ⟨hnd, h3.nodup, fun u hu w hw => ?_⟩
    rintro rfl
    obtain ⟨n, hn, rfl⟩ := List.mem_map.mp hu
    exact hdis n hn hw
  · intro q hq
    rw [ptrs_cons] at hq
    rcases List.mem_append.mp hq with hq | hq
    · obtain ⟨n, hn, rfl⟩ := List.mem_map.mp hq
      exact hlow n hn
    · exact h3.low q hq
  · intro q hq
    show put _ _ _ _ = _
    by_cases e : q = xp
    · subst e; exact put_self _ _ _
    · rw [put_ne _ e]; exact h3.fresh q hq

theorem rext_lower {xp : Nat} {r r2 r3 : Root} {N L : List GN} {rest rest2 lv3 : List (List GN)} (x : RExt r2 rest2 r3 lv3) (hp : ptrs rest2 = ptrs rest)
    (h2 : ∀ q, q ∉ ptrs (N :: rest) → r2.heap q = r.heap q) (hc : r2.calls = r.calls) (hsub : ∀ q ∈ L.map GN.p, q ∈ N.map GN.p)
    (hall : ∀ q ∈ N.map GN.p, q ∈ L.map GN.p ∨ q = xp) (hx : xp ∈ N.map GN.p) :
    RExt r (N :: rest) { r3 with heap := put r3.heap xp none } (L :: lv3) := by
  refine ⟨fun q hq => ?_, fun q hq => ?_, fun q hq hq' => ?_, by rw [← hc]; exact x.calls⟩
  · have hq2 := hq
    rw [ptrs_cons] at hq2
    simp only [List.mem_append, not_or] at hq2
    show put _ _ _ _ = _
    rw [put_ne _ (by rintro rfl; exact hq2.1 hx), x.same q (by rw [hp]; exact hq2.2), h2 q hq]
  · rw [ptrs_cons] at hq ⊢
    rcases List.mem_append.mp hq with hq | hq
    · exact List.mem_append_left _ (hsub q hq)
    · exact List.mem_append_right _ (by rw [← hp]; exact x.sub q hq)
  · rw [ptrs_cons] at hq hq'
    simp only [List.mem_append, not_or] at hq'
    show put _ _ _ _ = _
    by_cases e : q = xp
    · subst e; exact put_self _ _ _
    · rw [put_ne _ e]
      rcases List.mem_append.mp hq with hq | hq
      · rcases hall q hq with h | h
        · exact absurd h hq'.1
        · exact absurd h e
      · exact x.gone q (by rw [hp]; exact hq) hq'.2

theorem Link.ptrs : ∀ {S : List Sp} {N : List GN}, Link S N → S.map Sp.p = N.map GN.p
  | [], [], _ => rfl
  | [], _ :: _, h => absurd h (by simp [Link])
  | _ :: _, [], h => absurd h (by simp [Link])
  | c :: S, n :: N, h => by
    rw [List.map_cons, List.map_cons, h.1, Link.ptrs h.2.2.2]

theorem kids_ptrs : ∀ (hi : Nat) (es : List (Nat × Nat)), (kids hi es).map Sp.p = es.map Prod.snd
  | _, [] => rfl
  | _, e :: es => by rw [kids, List.map_cons, List.map_cons, kids_ptrs e.1 es]

theorem kidsOf_ptrs (M : List GN) : (kidsOf M).map Sp.p = M.flatMap fun m => m.es.map Prod.snd := by
  induction M with
  | nil => rfl
  | cons m M ih => rw [kidsOf_cons, List.map_append, ih, kids_ptrs, List.flatMap_cons]

/-- Only one entry leads to a node. -/
theorem kid_unique {prem postm N : List GN} {m : GN} {a b : List (Nat × Nat)} {e : Nat × Nat} (h : Link (kidsOf (prem ++ m :: postm)) N)
    (hd : (N.map GN.p).Nodup) (he : m.es = a ++ e :: b) :
    (∀ m' ∈ prem ++ postm, ∀ v ∈ m'.es.map Prod.snd, v ≠ e.2) ∧ ∀ v ∈ (a ++ b).map Prod.snd, v ≠ e.2 := by
  rw [← h.ptrs, kidsOf_ptrs, List.flatMap_append, List.flatMap_cons, he, List.map_append, List.map_cons] at hd
  have hd2 : (e.2 :: ((prem.flatMap fun m => m.es.map Prod.snd) ++ a.map Prod.snd ++ (b.map Prod.snd ++ postm.flatMap fun m => m.es.map Prod.snd))).Nodup := by
    refine (List.perm_middle.nodup_iff).mp ?_
    simpa [List.append_assoc] using hd
  have hn := (List.nodup_cons.mp hd2).1
  simp only [List.mem_append, not_or, List.mem_flatMap, not_exists, not_and] at hn
  obtain ⟨⟨n1, n2⟩, n3, n4⟩ := hn
  refine ⟨fun m' hm' v hv => ?_, fun v hv => ?_⟩
  · rintro rfl
    rcases List.mem_append.mp hm' with h | h
    · exact n1 m' h hv
    · exact n4 m' h hv
  · rintro rfl
    rw [List.map_append] at hv
    rcases List.mem_append.mp hv with h | h
    · exact n2 h
    · exact n3 h

theorem hiAt_ge {lo : Nat} : ∀ {hi : Nat} {es : List (Nat × Nat)}, lo ≤ hi → (∀ e ∈ es, lo ≤ e.1) → lo ≤ hiAt hi es
  | _, [], h, _ => h
  | _, e :: es, _, h => hiAt_ge (hi := e.1) (es := es) (h e (by simp)) fun x hx => h x (List.mem_cons_of_mem _ hx)

theorem big_take {big : Nat → Prop} {a c : List Nat} (h : BigL H big (a ++ c)) (hl : H ≤ a.length) : ∃ v ∈ a.take H, big v := by
  have := h.1
  rwa [List.take_append_of_le_length hl] at this

theorem big_drop {big : Nat → Prop} {c b : List Nat} (h : BigL H big (c ++ b)) (hl : H ≤ b.length) : ∃ v ∈ b.drop (b.length - H), big v := by
  obtain ⟨v, h1, h2⟩ := h.2
  refine ⟨v, ?_, h2⟩
  rwa [show (c ++ b).length - H = c.length + (b.length - H) from by simp; omega, List.drop_length_add_append] at h1

theorem merge_ok {level fuel : Nat} {r : Root} {pre post prem postm : List GN} {l x m : GN} {R : List (List GN)} {aM bM : List (Nat × Nat)} {κl κx : Nat}
    {big0 : Nat → Prop} (hH : 2 ≤ H) (h0 : 0 < level) (hdown : Down H K W ops fuel R) (h : St K W level r ((pre ++ l :: x :: post) :: (prem ++ m :: postm) :: R))
    (he : m.es = aM ++ (κl, l.p) :: (κx, x.p) :: bM) (lA : Link (kidsOf prem ++ kids m.hi aM) pre) (lB : Link (kids κx bM ++ kidsOf postm) post)
    (i1 : κl ≤ l.lo) (i2 : l.hi ≤ hiAt m.hi aM) (i3 : κx ≤ x.lo) (i4 : x.hi ≤ κl) (hlen : l.es.length + x.es.length ≤ K)
    (hbal : Bal H (shape ((prem ++ m :: postm) :: R))) (hbig : BigLv H big0 ((prem ++ m :: postm) :: R))
    (hq : ∀ q, big0 q → q ≠ x.p → bigOf ((pre ++ (⟨l.p, x.lo, l.hi, l.es ++ x.es⟩ : GN) :: post).map sh) q) :
    ∃ r' lv', merge (removeLevel ops fuel) r level l.p l.es.length x.p x.es.length m.p aM.length = some r' ∧
      St K W level r' ((pre ++ ⟨l.p, x.lo, l.hi, l.es ++ x.es⟩ :: post) :: lv') ∧
      RExt r ((pre ++ l :: x :: post) :: (prem ++ m :: postm) :: R) r' ((pre ++ ⟨l.p, x.lo, l.hi, l.es ++ x.es⟩ :: post) :: lv') ∧
      Bal H (shape ((pre ++ ⟨l.p, x.lo, l.hi, l.es ++ x.es⟩ :: post) :: lv')) := by
  have hmeml : l ∈ pre ++ l :: x :: post := by simp
  have hmemx : x ∈ pre ++ l :: x :: post := by simp
  have hne := h.chain.2.2.1 (by simp)
  have okl := h.chain.2.1 l hmeml
  have okx := h.chain.2.1 x hmemx
  have hlne := hne l hmeml
  have hxne := hne x hmemx
  have ht := h.tail h0
  have okm := ht.chain.2.1 m (by simp)
  have hdm := okm.desc
  rw [he] at hdm
  have hlM := h.apart hmeml
  have hxM := h.apart hmemx
  have hmM : m.p ∈ ptrs ((prem ++ m :: postm) :: R) := by rw [ptrs_cons]; simp
  have hml : m.p ≠ l.p := fun e => hlM (by rw [← e]; exact hmM)
  have hmx : m.p ≠ x.p := fun e => hxM (by rw [← e]; exact hmM)
  have hdis : (∀ y ∈ pre ++ post, y.p ≠ l.p ∧ y.p ≠ x.p) ∧ x.p ≠ l.p ∧ ((pre ++ l :: post).map GN.p).Nodup := by
    have hd := h.nodup
    rw [ptrs_cons] at hd
    have hd := (List.nodup_append.mp hd).1
    have hd1 : (x.p :: (pre ++ l :: post).map GN.p).Nodup := by
      have e1 : (pre ++ l :: x :: post).map GN.p = (pre ++ [l]).map GN.p ++ x.p :: post.map GN.p := by simp
      rw [e1, List.perm_middle.nodup_iff] at hd
      simpa using hd
    have hd2 := (List.nodup_cons.mp hd1).2
    have hx1 := (List.nodup_cons.mp hd1).1
    have hd3 := hd2
    rw [List.map_append, List.map_cons, List.perm_middle.nodup_iff] at hd3
    have hl1 := (List.nodup_cons.mp hd3).1
    refine ⟨fun y hy => ⟨fun e => hl1 ?_, fun e => hx1 ?_⟩, fun e => hx1 (by rw [e]; simp), hd2⟩
    · rw [← e, ← List.map_append]; exact List.mem_map.mpr ⟨y, hy, rfl⟩
    · rw [← e]; refine List.mem_map.mpr ⟨y, ?_, rfl⟩; simp at hy ⊢; grind
  obtain ⟨hother, hxl, hnd⟩ := hdis
  let lx : GN := ⟨l.p, x.lo, l.hi, l.es ++ x.es⟩
  let m2 : GN := ⟨m.p, m.lo, m.hi, aM ++ (κl, x.p) :: (κx, l.p) :: bM⟩
  let h1 : Heap := put r.heap l.p (some (mk K lx.es))
  let r2 : Root := { r with heap := put h1 m.p (some (mk K m2.es)) }
  have hlpos := h.low l.p (by rw [ptrs_cons]; simp)
  have hxpos := h.low x.p (by rw [ptrs_cons]; simp)
  have okm2 : m2.Ok K := by
    refine ⟨by have := okm.len; rw [he] at this; simpa [m2] using this, ?_, ?_, ?_⟩
    · show List.Pairwise _ _
      have e1 : (aM ++ (κl, x.p) :: (κx, l.p) :: bM).map Prod.fst = (aM ++ (κl, l.p) :: (κx, x.p) :: bM).map Prod.fst := by simp
      have h2 : ((aM ++ (κl, l.p) :: (κx, x.p) :: bM).map Prod.fst).Pairwise (fun x y => y < x) := List.pairwise_map.mpr hdm
      rw [← e1] at h2
      exact List.pairwise_map.mp h2
    · intro e hh
      simp only [m2, List.mem_append, List.mem_cons] at hh
      rcases hh with hh | rfl | rfl | hh
      · exact okm.key e (by rw [he]; simp [hh])
      · exact okm.key (κl, l.p) (by rw [he]; simp)
      · exact okm.key (κx, x.p) (by rw [he]; simp)
      · exact okm.key e (by rw [he]; simp [hh])
    · intro e hh
      simp only [m2, List.mem_append, List.mem_cons] at hh
      rcases hh with hh | rfl | rfl | hh
      · exact okm.val e (by rw [he]; simp [hh])
      · show x.p ≠ 0; omega
      · show l.p ≠ 0; omega
      · exact okm.val e (by rw [he]; simp [hh])
  have ht1 : St K W (level + 1) { r with heap := h1 } ((prem ++ m :: postm) :: R) :=
    st_heap ht (fun q hq => put_ne _ (by rintro rfl; exact hlM hq)) fun q hq => by
      show put _ _ _ q = none
      rw [put_ne _ (by omega)]
      exact h.fresh q hq
  have ht2 : St K W (level + 1) r2 ((prem ++ m2 :: postm) :: R) :=
    st_store (n' := m2) ht1 rfl rfl rfl okm2 (fun _ => by simp [m2]) (fun _ _ => by simp [m2]; omega)
  have hκl := okm.key (κl, l.p) (by rw [he]; simp)
  have hsame : ∀ q, bigOf ((prem ++ m :: postm).map sh) q → bigOf ((prem ++ m2 :: postm).map sh) q := by
    intro q hq
    rw [bigOf_map] at hq ⊢
    obtain ⟨y, y1, y2, y3⟩ := hq
    rcases List.mem_append.mp y1 with y1 | y1
    · exact ⟨y, by simp [y1], y2, y3⟩
    · rcases List.mem_cons.mp y1 with rfl | y1
      · exact ⟨m2, by simp, y2, by simp [m2]; omega⟩
      · exact ⟨y, by simp [y1], y2, y3⟩
  obtain ⟨r3, v3, lv3, e3, p3⟩ := hdown (level + 1) r2 prem m2 postm aM (κl, x.p) ((κx, l.p) :: bM) κl (.slot m.p aM.length) (by omega) ht2 rfl
    (fun y hy => hdm.cross y hy (κl, l.p) (by simp)) (Nat.le_refl _) hκl.1 hκl.2 (Or.inr ⟨rfl, rfl, by simp⟩)
    (bal_cons.mpr ⟨(bal_cons.mp hbal).1.mono hsame, (bal_cons.mp hbal).2⟩)
  have hpt2 : ptrs ((prem ++ m2 :: postm) :: R) = ptrs ((prem ++ m :: postm) :: R) := by
    rw [ptrs_cons, ptrs_cons]; simp [m2]
  have hout : ∀ q, q ∉ ptrs ((prem ++ m :: postm) :: R) → q ≠ l.p → r3.heap q = r.heap q := fun q q1 q2 => by
    rw [p3.ext.same q (by rw [hpt2]; exact q1)]
    show put (put _ _ _) _ _ q = _
    rw [put_ne _ (by rintro rfl; exact q1 hmM), put_ne _ q2]
  have hl3 : r3.heap l.p = some (mk K lx.es) := by
    rw [p3.ext.same l.p (by rw [hpt2]; exact hlM)]
    show put (put _ _ _) _ _ _ = _
    rw [put_ne _ (Ne.symm hml), put_self]
  have hx3 : x.p ∉ ptrs lv3 := fun hh => hxM (by rw [← hpt2]; exact p3.ext.sub _ hh)
  have hlink : Link (spans r3.node W lv3) (pre ++ lx :: post) := by
    refine Link.wide p3.wide ?_
    show Link (kidsOf prem ++ kids m.hi (aM ++ (κx, l.p) :: bM) ++ kidsOf postm) _
    rw [kids_append, ← List.append_assoc, kids, List.append_assoc]
    exact lA.append ⟨rfl, i3, i2, lB⟩
  have hxlo : x.lo ≤ l.lo := by
    obtain ⟨y, z, hy⟩ := last_split hxne
    have := okx.key z (by rw [hy]; simp)
    omega
  have oklx : lx.Ok K := by
    refine ⟨by simpa [lx] using hlen, ?_, ?_, ?_⟩
    · refine List.pairwise_append.mpr ⟨okl.desc, okx.desc, fun y hy z hz => ?_⟩
      have := okl.key y hy
      have := okx.key z hz
      omega
    · intro e hh
      rcases List.mem_append.mp hh with hh | hh
      · have := okl.key e hh
        exact ⟨by show x.lo ≤ _; omega, this.2⟩
      · have := okx.key e hh
        have := okl.key _ (List.mem_of_getLast? (List.getLast?_eq_some_getLast hlne))
        exact ⟨by show x.lo ≤ _; omega, by show _ < l.hi; omega⟩
    · intro e hh
      rcases List.mem_append.mp hh with hh | hh
      · exact okl.val e hh
      · exact okx.val e hh
  have hcase : ∀ {P : GN → Prop}, P lx → (∀ y ∈ pre ++ post, P y) → ∀ y ∈ pre ++ lx :: post, P y := by
    intro P p1 p2 y hy
    rcases List.mem_append.mp hy with hy | hy
    · exact p2 y (by simp [hy])
    · rcases List.mem_cons.mp hy with rfl | hy
      · exact p1
      · exact p2 y (by simp [hy])
  have hold : ∀ y ∈ pre ++ post, y ∈ pre ++ l :: x :: post := fun y hy => by simp at hy ⊢; grind
  refine ⟨{ r3 with heap := put r3.heap x.p none }, lv3, ?_, ?_, ?_, ?_⟩
  · unfold merge
    rw [h.hold.head l hmeml, Option.bind_some, h.hold.head x hmemx, Option.bind_some, merge_mk hlen, Option.bind_some]
    try dsimp only
    rw [put_ne _ hml, ht.hold.head m (by simp), he, Option.bind_some, setVal_mk rfl, Option.bind_some,
      show aM ++ (κl, x.p) :: (κx, x.p) :: bM = (aM ++ [(κl, x.p)]) ++ (κx, x.p) :: bM from by simp, setVal_mk (by simp), Option.bind_some,
      show (aM ++ [(κl, x.p)]) ++ (κx, l.p) :: bM = m2.es from by simp [m2]]
    show ((removeLevel ops fuel r2 (level + 1) (.slot m.p aM.length)).bind fun s => free s.1 x.p) = _
    rw [e3, Option.bind_some]
    unfold free
    dsimp only
    rw [hout x.p hxM hxl, h.hold.head x hmemx, Option.map_some]
  · refine st_lower p3.st h0 hlink ?_ ?_ ?_ ?_ ?_ hx3 (by simpa [lx] using hnd) ?_ ?_
    · exact hcase oklx fun y hy => h.chain.2.1 y (hold y hy)
    · intro _
      exact hcase (by simp [lx, hlne]) fun y hy => hne y (hold y hy)
    · intro e1 _
      obtain ⟨t1, t2, _, w, t3⟩ := p3.top e1
      have hab : aM = [] ∧ bM = [] := by
        have := congrArg List.length t3
        simp at this
        exact ⟨List.length_eq_zero_iff.mp (by omega), List.length_eq_zero_iff.mp (by omega)⟩
      obtain ⟨rfl, rfl⟩ := hab
      subst t1; subst t2
      have := Link.nil_left lA
      have := Link.nil_left lB
      subst this
      have := Link.nil_left lA
      subst this
      refine hcase ?_ (by simp)
      have := List.length_pos_iff.mpr hlne
      have := List.length_pos_iff.mpr hxne
      simp [lx]; omega
    · refine hcase hl3 fun y hy => ?_
      rw [hout y.p (h.apart (hold y hy)) (hother y hy).1]
      exact h.hold.head y (hold y hy)
    · intro hh
      obtain ⟨y, hy, e⟩ := List.mem_map.mp hh
      exact hcase (P := fun y => y.p ≠ x.p) (Ne.symm hxl) (fun y hy => (hother y hy).2) y hy e
    · refine hcase ?_ fun y hy => ?_
      · exact fun hh => hlM (by rw [← hpt2]; exact p3.ext.sub _ hh)
      · exact fun hh => h.apart (hold y hy) (by rw [← hpt2]; exact p3.ext.sub _ hh)
    · rw [p3.ext.calls]
      refine hcase hlpos fun y hy => h.low y.p ?_
      rw [ptrs_cons]
      exact List.mem_append_left _ (List.mem_map.mpr ⟨y, hold y hy, rfl⟩)
  · refine rext_lower p3.ext hpt2 (fun q hq => ?_) rfl (fun q hq => ?_) (fun q hq => ?_) (List.mem_map.mpr ⟨x, hmemx, rfl⟩)
    · rw [ptrs_cons] at hq
      simp only [List.mem_append, not_or] at hq
      show put (put _ _ _) _ _ q = _
      rw [put_ne _ (by rintro rfl; exact hq.2 hmM), put_ne _ (by rintro rfl; exact hq.1 (by simp))]
    · simp only [List.map_append, List.map_cons, List.mem_append, List.mem_cons] at hq ⊢
      grind
    · simp only [List.map_append, List.map_cons, List.mem_append, List.mem_cons] at hq ⊢
      grind
  · have huniq := kid_unique (a := aM ++ [(κl, l.p)]) (e := (κx, x.p)) (b := bM) h.chain.1 (by
      have hd := h.nodup
      rw [ptrs_cons] at hd
      exact (List.nodup_append.mp hd).1) (by rw [he]; simp)
    have hlbig : bigOf ((pre ++ lx :: post).map sh) l.p := by
      have := List.length_pos_iff.mpr hlne
      have := List.length_pos_iff.mpr hxne
      exact bigOf_map.mpr ⟨lx, by simp, rfl, by simp [lx]; omega⟩
    refine bal_cons.mpr ⟨p3.keep _ (fun y hy => ?_) (fun _ => ?_), p3.bal⟩
    · refine (hbig y (by simp at hy ⊢; grind)).mono fun v hv hb => hq v hb (huniq.1 y hy v hv)
    · have hm0 := hbig m (by simp)
      rw [he] at hm0
      have hm1 := hm0 (by simp; omega)
      refine BigL.of (a := aM.map Prod.snd) (b := bM.map Prod.snd) hlbig hlbig (fun hl => ?_) (fun hl => ?_) (by omega) ⟨bM.map Prod.snd, by simp⟩ ⟨aM.map Prod.snd, by simp⟩
      · rw [List.map_append] at hm1
        obtain ⟨v, v1, v2⟩ := big_take hm1 hl
        refine ⟨v, v1, hq v v2 (huniq.2 v ?_)⟩
        have := List.mem_of_mem_take v1
        simp only [List.map_append, List.mem_append]
        exact Or.inl (Or.inl this)
      · rw [show (aM ++ (κl, l.p) :: (κx, x.p) :: bM).map Prod.snd = (aM ++ [(κl, l.p), (κx, x.p)]).map Prod.snd ++ bM.map Prod.snd from by simp] at hm1
        obtain ⟨v, v1, v2⟩ := big_drop hm1 hl
        refine ⟨v, v1, hq v v2 (huniq.2 v ?_)⟩
        have := List.mem_of_mem_drop v1
        simp only [List.map_append, List.mem_append]
        exact Or.inr this

theorem rebal_ok {level fuel k : Nat} {r : Root} {key : Key} {pre post : List GN} {n : GN} {rest : List (List GN)} {big0 : Nat → Prop} (hKH : K = 2 * H)
    (hH : 2 ≤ H) (h0 : 0 < level) (hdown : ∀ M R, rest = M :: R → Down H K W ops fuel R) (h : St K W level r ((pre ++ n :: post) :: rest)) (hrest : rest ≠ [])
    (hlt : n.es.length < H) (hkey : key.read r.heap = some k) (hlo : n.lo ≤ k) (hhi : k < n.hi)
    (hbal : Bal H (shape rest)) (hbig : BigLv H big0 rest) (hq : ∀ q, big0 q → q ≠ n.p → bigOf ((pre ++ post).map sh) q) :
    ∃ r' lv', rebalance (removeLevel ops fuel) r level key n.p n.es.length = some r' ∧
      RPost H K W level r ((pre ++ n :: post) :: rest) pre n.hi n.es post r' lv' := by
  obtain ⟨A, c, B, f1, lA, lB, hp, p2, p3⟩ := locate h.chain hlo hhi
  cases f1 with
  | top => exact absurd rfl hrest
  | @down R A0 c0 B0 prem m postm aM e bM f1 hA hB hmp q1 q2 q3 q4 he ha hek =>
  have hdown := hdown _ R rfl
  have hmemn : n ∈ pre ++ n :: post := by simp
  have hne := h.chain.2.2.1 hrest
  have hnne := hne n hmemn
  have okn := h.chain.2.1 n hmemn
  have ht := h.tail h0
  have okm := ht.chain.2.1 m (by simp)
  have hdm := okm.desc
  rw [he] at hdm
  simp only at hp p2 p3
  have hfp : findParent r k (level + 1) = some (r, m.p) := by rw [findParent_foc (by omega) ht f1, hmp]
  have hm := ht.hold.head m (by simp)
  rw [he] at hm
  have hvm : ∀ x ∈ aM ++ e :: bM, x.2 ≠ 0 := fun x hx => okm.val x (by rw [he]; exact hx)
  have hfi : findIndex k (mk K (aM ++ e :: bM)) = aM.length := findIndex_mk K k ha (by simpa using hek)
  have hnil : n.es.length ≠ 0 := fun hh => hnne (List.length_eq_zero_iff.mp hh)
  have hnd0 : ((pre ++ n :: post).map GN.p).Nodup := by
    have hd := h.nodup
    rw [ptrs_cons] at hd
    exact (List.nodup_append.mp hd).1
  have huniq := kid_unique h.chain.1 hnd0 he
  rw [← hp] at huniq
  have heq : e = (e.1, n.p) := by rw [hp]
  -- nothing fits
  have stay : (∀ a' x, aM = a' ++ [x] → bigOf ((pre ++ post).map sh) x.2) → (∀ x b', bM = x :: b' → bigOf ((pre ++ post).map sh) x.2) →
      RPost H K W level r ((pre ++ n :: post) :: (prem ++ m :: postm) :: R) pre n.hi n.es post r ((pre ++ n :: post) :: (prem ++ m :: postm) :: R) := by
    intro s1 s2
    have hmono : ∀ q, bigOf ((pre ++ post).map sh) q → bigOf ((pre ++ n :: post).map sh) q := by
      intro q hq
      rw [bigOf_map] at hq ⊢
      obtain ⟨y, y1, y2, y3⟩ := hq
      exact ⟨y, by simp at y1 ⊢; grind, y2, y3⟩
    refine ⟨h, ⟨fun _ _ => rfl, fun _ h => h, fun q h1 h2 => absurd h1 h2, rfl⟩, ?_, ?_, ?_, fun hh => by simp at hh, ?_⟩
    · rw [spans, kidsOf_append, kidsOf_cons, ← List.append_assoc]; exact Wide.refl _
    · refine bal_cons.mpr ⟨fun y hy => ?_, hbal⟩
      have hy' : y = m ∨ y ∈ prem ++ postm := by simp at hy ⊢; grind
      rcases hy' with rfl | hy'
      · intro hl2
        have hm1 := hbig y (by simp) hl2
        rw [he] at hm1 hl2 ⊢
        have hw1 : ∀ a', (∀ v ∈ a', v ∈ aM.map Prod.snd) → H ≤ a'.length → (∃ c, (aM ++ e :: bM).map Prod.snd = a' ++ c) → ∃ v ∈ a'.take H, bigOf ((pre ++ n :: post).map sh) v := by
          intro a' i1 i2 i3
          obtain ⟨c, i3⟩ := i3
          rw [i3] at hm1
          obtain ⟨v, v1, v2⟩ := big_take hm1 i2
          exact ⟨v, v1, hmono v (hq v v2 (huniq.2 v (by rw [List.map_append]; exact List.mem_append_left _ (i1 v (List.mem_of_mem_take v1)))))⟩
        have hw2 : ∀ b', (∀ v ∈ b', v ∈ bM.map Prod.snd) → H ≤ b'.length → (∃ c, (aM ++ e :: bM).map Prod.snd = c ++ b') → ∃ v ∈ b'.drop (b'.length - H), bigOf ((pre ++ n :: post).map sh) v := by
          intro b' i1 i2 i3
          obtain ⟨c, i3⟩ := i3
          rw [i3] at hm1
          obtain ⟨v, v1, v2⟩ := big_drop hm1 i2
          exact ⟨v, v1, hmono v (hq v v2 (huniq.2 v (by rw [List.map_append]; exact List.mem_append_right _ (i1 v (List.mem_of_mem_drop v1)))))⟩
        -- the neighbours have more than `H` entries
        rcases List.eq_nil_or_concat aM with rfl | ⟨a', x, hax⟩
        · cases bM with
          | nil => simp at hl2
          | cons z bM =>
            have hz := hmono _ (s2 z bM rfl)
            exact BigL.of (a := [e.2]) (b := bM.map Prod.snd) hz hz (fun hh => by simp at hh; omega)
              (fun hh => hw2 _ (by intro v hv; simp at hv ⊢; grind) hh ⟨[e.2, z.2], by simp⟩) (by omega) ⟨bM.map Prod.snd, by simp⟩ ⟨[e.2], by simp⟩
        · have hax : aM = a' ++ [x] := by simpa using hax
          have hx := hmono _ (s1 a' x hax)
          have hfirst : H ≤ (a'.map Prod.snd).length → ∃ v ∈ (a'.map Prod.snd).take H, bigOf ((pre ++ n :: post).map sh) v := fun hh =>
            hw1 _ (by intro v hv; rw [hax]; simp at hv ⊢; grind) hh ⟨x.2 :: e.2 :: bM.map Prod.snd, by rw [hax]; simp⟩
          cases bM with
          | nil =>
            exact BigL.of (a := a'.map Prod.snd) (b := [e.2]) hx hx hfirst (fun hh => by simp at hh; omega) (by omega) ⟨[e.2], by rw [hax]; simp⟩ ⟨a'.map Prod.snd, by rw [hax]; simp⟩
          | cons z bM =>
            have hz := hmono _ (s2 z bM rfl)
            exact BigL.of (a := a'.map Prod.snd) (b := bM.map Prod.snd) hx hz hfirst
              (fun hh => hw2 _ (by intro v hv; simp at hv ⊢; grind) hh ⟨(aM ++ [e, z]).map Prod.snd, by simp⟩) (by omega)
              ⟨e.2 :: z.2 :: bM.map Prod.snd, by rw [hax]; simp⟩ ⟨(aM ++ [e]).map Prod.snd, by simp⟩
      · exact (hbig y hy).mono fun v hv hb => hmono v (hq v hb (huniq.1 y hy' v hv))
    · intro big b1 b2 y hy
      have hy' : y = n ∨ y ∈ pre ++ post := by simp at hy ⊢; grind
      rcases hy' with rfl | hy'
      · exact fun _ => b2 hnne
      · exact b1 y hy'
    · intro L R' hh
      simp only [List.cons.injEq] at hh
      rw [← hh.1]
      simp [flat_append, flat_cons]
  -- the neighbour to the right
  have right : (∀ a' x, aM = a' ++ [x] → bigOf ((pre ++ post).map sh) x.2) →
      ∃ r' lv', rebalanceRight (removeLevel ops fuel) r level n.p n.es.length m.p aM.length = some r' ∧
        RPost H K W level r ((pre ++ n :: post) :: (prem ++ m :: postm) :: R) pre n.hi n.es post r' lv' := by
    intro s1
    unfold rebalanceRight
    rw [hm, Option.bind_some, fillIndex_mk hvm (by simp)]
    cases bM with
    | nil =>
      rw [if_neg (by simp)]
      exact ⟨r, _, rfl, stay s1 (by simp)⟩
    | cons z bM =>
      obtain ⟨zn, post', rfl, z1, z2, z3, lB'⟩ := Link.cons_left lB
      have hmemz : zn ∈ pre ++ n :: zn :: post' := by simp
      have okz := h.chain.2.1 zn hmemz
      simp only at z1 z2 z3
      rw [if_pos (by simp), show aM ++ e :: z :: bM = (aM ++ [e]) ++ z :: bM from by simp, valAt_mk (by simp), Option.bind_some, ← z1, h.hold.head zn hmemz, Option.bind_some,
        fillIndex_mk okz.val (by simp), mk_length okz.len]
      by_cases hfit : n.es.length + zn.es.length ≤ K
      · rw [if_pos hfit]
        have hze : z = (z.1, zn.p) := by rw [z1]
        obtain ⟨r', lv', e1, e2, e3, e4⟩ := merge_ok (l := n) (x := zn) (κl := e.1) (κx := z.1) (bM := bM) (aM := aM) (big0 := big0) hH h0 hdown h (by rw [he, ← heq, ← hze]) lA lB' p2 p3 z2 z3 hfit hbal hbig (by
          intro q b1 b2
          by_cases hqn : q = n.p
          · have := List.length_pos_iff.mpr (hne zn hmemz)
            exact bigOf_map.mpr ⟨_, List.mem_append_right _ (List.mem_cons_self ..), hqn.symm, by simp; omega⟩
          · have := hq q b1 hqn
            rw [bigOf_map] at this ⊢
            obtain ⟨y, y1, y2, y3⟩ := this
            refine ⟨y, ?_, y2, y3⟩
            have : y ≠ zn := by rintro rfl; exact b2 y2.symm
            simp at y1 ⊢; grind)
        refine ⟨r', _, e1, e2, e3, ?_, e4, ?_, fun hh => by simp at hh, ?_⟩
        · rw [spans]
          simp only [kidsOf_append, kidsOf_cons, kids_append, List.append_assoc]
          refine (Wide.refl _).append ((Wide.refl _).append ((kids_wide ?_ _).append (Wide.refl _)))
          obtain ⟨y, w, hy⟩ := last_split hnne
          rw [hy, hiAt_append]
          have := okn.key w (by rw [hy]; simp)
          show zn.hi ≤ w.1
          omega
        · intro big b1 b2 y hy
          have hzb : BigOk H big (zn.es.map Prod.snd) := b1 zn (by simp)
          have hy' : y = ⟨n.p, zn.lo, n.hi, n.es ++ zn.es⟩ ∨ y ∈ pre ++ zn :: post' := by simp at hy ⊢; grind
          rcases hy' with rfl | hy'
          · intro _
            obtain ⟨⟨v, v1, v2⟩, _⟩ := b2 hnne
            have hv := List.mem_of_mem_take v1
            refine ⟨⟨v, ?_, v2⟩, ?_⟩
            · dsimp only
              rw [List.map_append, List.take_append, List.take_of_length_le (by simp; omega)]
              exact List.mem_append_left _ hv
            · dsimp only
              by_cases hz2 : 2 ≤ zn.es.length
              · obtain ⟨_, w, w1, w2⟩ := hzb (by simpa using hz2)
                refine ⟨w, ?_, w2⟩
                rw [List.map_append]
                by_cases hzH : H ≤ zn.es.length
                · rw [show (n.es.map Prod.snd ++ zn.es.map Prod.snd).length - H = (n.es.map Prod.snd).length + ((zn.es.map Prod.snd).length - H) from by simp; omega, List.drop_length_add_append]
                  exact w1
                · rw [List.drop_append_of_le_length (by simp; omega)]
                  exact List.mem_append_right _ (List.mem_of_mem_drop w1)
              · refine ⟨v, ?_, v2⟩
                rw [show ((n.es ++ zn.es).map Prod.snd).length - H = 0 from by simp; omega, List.drop_zero, List.map_append]
                exact List.mem_append_left _ hv
          · exact b1 y hy'
        · intro L R' hh
          simp only [List.cons.injEq] at hh
          rw [← hh.1]
          simp [flat_append, flat_cons]
      · rw [if_neg hfit]
        refine ⟨r, _, rfl, stay s1 ?_⟩
        intro x b' hx
        simp only [List.cons.injEq] at hx
        rw [← hx.1, ← z1]
        exact bigOf_map.mpr ⟨zn, by simp, rfl, by omega⟩
  unfold rebalance
  rw [if_neg hnil, hkey, Option.bind_some, hfp, Option.bind_some]
  try dsimp only
  rw [hm, Option.bind_some]
  try dsimp only
  rw [hfi]
  rcases List.eq_nil_or_concat aM with hax | ⟨a', x, hax⟩
  · rw [if_neg (by rw [hax]; simp)]
    exact right (by rw [hax]; simp)
  · have hax : aM = a' ++ [x] := by simpa using hax
    subst hax
    have lA0 := lA
    rw [kids_append, ← List.append_assoc] at lA0
    obtain ⟨pre', Y, rfl, lA', lY⟩ := Link.split lA0
    obtain ⟨l, Y', rfl, l1, l2, l3, lY'⟩ := Link.cons_left lY
    have := Link.nil_left lY'
    subst this
    simp only at l1 l2 l3
    have hmeml : l ∈ pre' ++ [l] ++ n :: post := by simp
    have okl := h.chain.2.1 l hmeml
    rw [if_pos (by simp), show (a' ++ [x]).length - 1 = a'.length from by simp, show a' ++ [x] ++ e :: bM = a' ++ x :: (e :: bM) from by simp, valAt_mk rfl, Option.bind_some,
      ← l1, h.hold.head l hmeml, Option.bind_some, fillIndex_mk okl.val (by simp), mk_length okl.len]
    by_cases hfit : n.es.length + l.es.length ≤ K
    · rw [if_pos hfit]
      have hxe : x = (x.1, l.p) := by rw [l1]
      have h' : St K W level r ((pre' ++ l :: n :: post) :: (prem ++ m :: postm) :: R) := by
        rw [show pre' ++ l :: n :: post = pre' ++ [l] ++ n :: post from by simp]; exact h
      rw [show hiAt m.hi (a' ++ [x]) = x.1 from by rw [hiAt_append]; rfl] at p3
      obtain ⟨r', lv', e1, e2, e3, e4⟩ := merge_ok (l := l) (x := n) (κl := x.1) (κx := e.1) (bM := bM) (aM := a') (big0 := big0) hH h0 hdown h' (by rw [he, ← heq, ← hxe]; simp) lA' lB l2 l3 p2 p3 (by omega) hbal hbig (by
        intro q b1 b2
        have := hq q b1 b2
        rw [bigOf_map] at this ⊢
        obtain ⟨y, y1, y2, y3⟩ := this
        by_cases hyl : y = l
        · subst hyl
          exact ⟨_, List.mem_append_right _ (List.mem_cons_self ..), y2, by simp; omega⟩
        · exact ⟨y, by simp at y1 ⊢; grind, y2, y3⟩)
      have hlne := hne l hmeml
      refine ⟨r', _, e1, e2, ?_, ?_, e4, ?_, fun hh => by simp at hh, ?_⟩
      · rw [show pre' ++ [l] ++ n :: post = pre' ++ l :: n :: post from by simp]; exact e3
      · rw [spans]
        simp only [kidsOf_append, kidsOf_cons, kids_append, List.append_assoc, show kidsOf [] = [] from rfl, List.nil_append]
        refine (Wide.refl _).append ((Wide.refl _).append ((kids_wide ?_ _).append (Wide.refl _)))
        obtain ⟨y, w, hy⟩ := last_split hlne
        rw [hy, hiAt_append]
        have := okl.key w (by rw [hy]; simp)
        show n.hi ≤ w.1
        omega
      · intro big b1 b2 y hy
        have hlb : BigOk H big (l.es.map Prod.snd) := b1 l (by simp)
        have hy' : y = ⟨l.p, n.lo, l.hi, l.es ++ n.es⟩ ∨ y ∈ pre' ++ [l] ++ post := by simp at hy ⊢; grind
        rcases hy' with rfl | hy'
        · intro _
          obtain ⟨⟨v, v1, v2⟩, _⟩ := b2 hnne
          have hv := List.mem_of_mem_take v1
          refine ⟨?_, ⟨v, ?_, v2⟩⟩
          · dsimp only
            by_cases hz2 : 2 ≤ l.es.length
            · obtain ⟨⟨w, w1, w2⟩, _⟩ := hlb (by simpa using hz2)
              refine ⟨w, ?_, w2⟩
              rw [List.map_append, List.take_append]
              exact List.mem_append_left _ w1
            · refine ⟨v, ?_, v2⟩
              rw [List.take_of_length_le (by simp; omega), List.map_append]
              exact List.mem_append_right _ hv
          · dsimp only
            rw [List.map_append, List.drop_append_of_le_length (by simp; omega)]
            exact List.mem_append_right _ hv
        · exact b1 y hy'
      · intro L R' hh
        simp only [List.cons.injEq] at hh
        rw [← hh.1]
        simp [flat_append, flat_cons, show flat [] = [] from rfl]
    · rw [if_neg hfit]
      refine right ?_
      intro a2 x2 hx2
      have : x2 = x := by
        have := (List.append_inj' hx2 rfl).2
        simpa using this.symm
      rw [this, ← l1]
      exact bigOf_map.mpr ⟨l, by simp, rfl, by omega⟩

theorem RPost.before {level hi : Nat} {r r1 r' : Root} {lv lv1 lv' : List (List GN)} {pre post : List GN} {c : List (Nat × Nat)} (h : RPost H K W level r1 lv1 pre hi c post r' lv')
    (hp : ptrs lv1 = ptrs lv) (hh : ∀ q, q ∉ ptrs lv → r1.heap q = r.heap q) (hc : r1.calls = r.calls) : RPost H K W level r lv pre hi c post r' lv' :=
  { h with
    ext := ⟨fun q hq => by rw [h.ext.same q (by rw [hp]; exact hq), hh q hq], fun q hq => by rw [← hp]; exact h.ext.sub q hq,
      fun q hq => h.ext.gone q (by rw [hp]; exact hq), by rw [h.ext.calls, hc]⟩ }

theorem mem_mid {α : Type} {pre post : List α} {n y : α} (h : y ∈ pre ++ n :: post) : y = n ∨ y ∈ pre ++ post := by
  simp at h ⊢; grind

theorem removeSlot_eq {rec : Root → Nat → Key → Option (Root × Nat)} {r : Root} {level p : Nat} {key : Key} {a b : List (Nat × Nat)} {e : Nat × Nat}
    (hl : (a ++ e :: b).length ≤ K) : removeSlot rec r level key p (mk K (a ++ e :: b)) a.length (a ++ e :: b).length =
      let r1 := { r with heap := put r.heap p (some (mk K (a ++ b))) }
      if (a ++ b).length < K / 2 then
        if level < r.height then rebalance rec r1 level key p (a ++ b).length else if (a ++ b).length = 1 then shrink r1 else some r1
      else some r1 := by
  unfold removeSlot
  rw [if_neg (by simp)]
  try dsimp only
  have := remove_mk (K := K) (a := a) (b := b) (e := e) hl
  generalize hs : shiftDown ((a ++ e :: b).length - 1 - a.length) a.length (mk K (a ++ e :: b)) = o at this ⊢
  cases o with
  | none => simp at this
  | some s =>
    rw [Option.bind_some] at this
    rw [Option.bind_some, this, Option.bind_some, mk_length hl, show (a ++ e :: b).length - 1 = (a ++ b).length from by simp]

theorem slot_ok {level fuel k : Nat} {r : Root} {key : Key} {pre post : List GN} {n : GN} {rest : List (List GN)} {a b : List (Nat × Nat)} {e : Nat × Nat} (hKH : K = 2 * H)
    (hH : 2 ≤ H) (h0 : 0 < level) (hdown : ∀ M R, rest = M :: R → Down H K W ops fuel R) (h : St K W level r ((pre ++ n :: post) :: rest))
    (he : n.es = a ++ e :: b) (hlo : n.lo ≤ k) (hhi : k < n.hi) (hkey : RKey key k n.p a e b) (hbal : Bal H (shape ((pre ++ n :: post) :: rest))) :
    ∃ r' lv', removeSlot (removeLevel ops fuel) r level key n.p (mk K (a ++ e :: b)) a.length (a ++ e :: b).length = some r' ∧
      RPost H K W level r ((pre ++ n :: post) :: rest) pre n.hi (a ++ b) post r' lv' := by
  have hmemn : n ∈ pre ++ n :: post := by simp
  have okn := h.chain.2.1 n hmemn
  have hlen := okn.len
  rw [he] at hlen
  let r1 : Root := { r with heap := put r.heap n.p (some (mk K (a ++ b))) }
  let n1 : GN := ⟨n.p, n.lo, n.hi, a ++ b⟩
  have hpt : ptrs ((pre ++ n1 :: post) :: rest) = ptrs ((pre ++ n :: post) :: rest) := ptrs_replace _ _ n n1 _ rfl
  have hnp : n.p ∈ ptrs ((pre ++ n :: post) :: rest) := by rw [ptrs_cons]; simp
  have hr1 : ∀ q, q ∉ ptrs ((pre ++ n :: post) :: rest) → r1.heap q = r.heap q := fun q hq => put_ne _ (by rintro rfl; exact hq hnp)
  have ok1 : n1.Ok K := by
    have hd := okn.desc
    rw [he] at hd
    refine ⟨by simp at hlen ⊢; show (a ++ b).length ≤ K; simp; omega, ?_, ?_, ?_⟩
    · exact List.pairwise_append.mpr ⟨hd.left, (List.pairwise_cons.mp hd.right).2, fun x hx y hy => hd.cross x hx y (by simp [hy])⟩
    · intro x hx
      exact okn.key x (by rw [he]; rcases List.mem_append.mp hx with hx | hx <;> simp [hx])
    · intro x hx
      exact okn.val x (by rw [he]; rcases List.mem_append.mp hx with hx | hx <;> simp [hx])
  have hst1 : (rest ≠ [] → a ++ b ≠ []) → (rest = [] → (level == 1) = false → 2 ≤ (a ++ b).length) → St K W level r1 ((pre ++ n1 :: post) :: rest) :=
    fun g1 g2 => st_store (n' := n1) h rfl rfl rfl ok1 g1 g2
  have done : (rest ≠ [] → a ++ b ≠ []) → (rest = [] → (level == 1) = false → 2 ≤ (a ++ b).length) → Bal H (shape ((pre ++ n1 :: post) :: rest)) →
      RPost H K W level r ((pre ++ n :: post) :: rest) pre n.hi (a ++ b) post r1 ((pre ++ n1 :: post) :: rest) := by
    intro g1 g2 g3
    refine ⟨hst1 g1 g2, ⟨hr1, fun q hq => by rw [← hpt]; exact hq, fun q h1 h2 => absurd h1 (by rw [← hpt]; exact h2), rfl⟩, ?_, g3, ?_, fun hh => by simp at hh, ?_⟩
    · rw [spans, kidsOf_append, kidsOf_cons, ← List.append_assoc]; exact Wide.refl _
    · intro big b1 b2 y hy
      rcases mem_mid hy with rfl | hy'
      · intro hl2
        exact b2 (by intro hh; rw [show n1.es = a ++ b from rfl, hh] at hl2; simp at hl2)
      · exact b1 y hy'
    · intro L R' hh
      simp only [List.cons.injEq] at hh
      rw [← hh.1]
      simp [flat_append, flat_cons, n1]
  have hbal' := bal_cons.mp hbal
  have hheight : level < r.height ↔ rest ≠ [] := by
    have := h.height
    simp only [List.length_cons] at this
    constructor
    · intro hh h0; subst h0; simp at this; omega
    · intro hh
      have := List.length_pos_iff.mpr hh
      omega
  rw [removeSlot_eq hlen, show K / 2 = H from by omega]
  dsimp only
  by_cases hfew : (a ++ b).length < H
  · rw [if_pos hfew]
    by_cases hrest : rest = []
    · subst hrest
      rw [if_neg (by rw [hheight]; simp)]
      by_cases hone : (a ++ b).length = 1
      · rw [if_pos hone]
        unfold shrink
        by_cases hlev : level = 1
        · have hht := h.height
          simp only [List.length_cons, List.length_nil] at hht
          rw [if_pos (by show r.height < 2; omega)]
          exact ⟨_, _, rfl, done (by simp) (by intro _ hh; simp at hh; omega) trivial⟩
        · have hht := h.height
          simp only [List.length_cons, List.length_nil] at hht
          rw [if_neg (by show ¬ (r.height < 2); omega)]
          obtain ⟨rfl, rfl⟩ := Link.single h.chain.1
          obtain ⟨c1, c2, c3, _⟩ := h.chain.1
          simp only at c1 c2 c3
          obtain ⟨w, hw⟩ := List.length_eq_one_iff.mp hone
          rw [← c1]
          dsimp only
          rw [put_self, Option.bind_some, hw, show valAt (mk K [w]) 0 = some w.2 from valAt_mk (K := K) (a := []) (b := []) rfl, Option.bind_some]
          unfold free
          dsimp only
          rw [put_self, Option.map_some]
          refine ⟨_, [], rfl, ?_⟩
          refine ⟨⟨by show r.height - 1 + 1 = level + 0; omega, trivial, by intro N hN; simp at hN, by simp [ptrs], by simp [ptrs], ?_⟩, ⟨?_, by simp [ptrs], ?_, rfl⟩, ?_, trivial,
            fun _ _ _ => trivial, fun _ => ⟨rfl, rfl, hlev, w, rfl⟩, by simp⟩
          · intro q hq
            show put (put _ _ _) _ _ q = none
            have := h.fresh q hq
            unfold put
            split
            · rfl
            · exact this
          · intro q hq
            have hqn : q ≠ n.p := by rintro rfl; exact hq hnp
            show put (put _ _ _) _ _ q = _
            rw [put_ne _ hqn, put_ne _ hqn]
          · intro q hq _
            have hqn : q = n.p := by simpa [ptrs] using hq
            subst hqn
            exact put_self _ _ _
          · refine ⟨rfl, Nat.zero_le _, c3, trivial⟩
      · rw [if_neg hone]
        refine ⟨_, _, rfl, done (by simp) ?_ trivial⟩
        intro _ hh
        have := h.chain.2.2.2.1 rfl hh n hmemn
        rw [he] at this
        simp at this hone ⊢
        omega
    · rw [if_pos (hheight.mpr hrest)]
      by_cases hemp : a ++ b = []
      · obtain ⟨rfl, rfl⟩ := List.append_eq_nil_iff.mp hemp
        have hkm : key = .mem k := by
          rcases hkey with h | ⟨_, _, h⟩
          · exact h
          · exact absurd rfl h
        subst hkm
        unfold rebalance
        rw [if_pos (by simp)]
        obtain ⟨A, c, B, f1, lA, lB, hp, p2, p3⟩ := locate h.chain hlo hhi
        cases f1 with
        | top => exact absurd rfl hrest
        | @down R A0 c0 B0 prem m postm aM e' bM f1 hA hB hmp q1 q2 q3 q4 hem ha hek =>
        have ht := h.tail h0
        have hnM := h.apart hmemn
        have ht1 : St K W (level + 1) r1 ((prem ++ m :: postm) :: R) :=
          st_heap ht (fun q hq => put_ne _ (by rintro rfl; exact hnM hq)) fun q hq => by
            have := (h.low n.p hnp).2
            show put _ _ _ q = none
            rw [put_ne _ (by omega)]
            exact h.fresh q hq
        obtain ⟨r3, v3, lv3, e3, p3'⟩ := hdown _ R rfl (level + 1) r1 prem m postm aM e' bM k (.mem k) (by omega) ht1 hem ha hek q2 q3 (Or.inl rfl) hbal'.2
        have hout : ∀ q, q ∉ ptrs ((prem ++ m :: postm) :: R) → q ≠ n.p → r3.heap q = r.heap q := fun q i1 i2 => by
          rw [p3'.ext.same q i1]; exact put_ne _ i2
        have hdist := h.distinct
        have hold : ∀ y ∈ pre ++ post, y ∈ pre ++ n :: post := fun y hy => by simp at hy ⊢; grind
        have hes1 : n.es.length = 1 := by rw [he]; simp
        -- the nodes with several entries stay
        have hstay : ∀ q, bigOf ((pre ++ n :: post).map sh) q → bigOf ((pre ++ post).map sh) q := by
          intro q hq
          rw [bigOf_map] at hq ⊢
          obtain ⟨y, y1, y2, y3⟩ := hq
          rcases mem_mid y1 with rfl | y1
          · omega
          · exact ⟨y, y1, y2, y3⟩
        have hnbig : ¬ bigOf ((pre ++ n :: post).map sh) n.p := by
          intro hq
          rw [bigOf_map] at hq
          obtain ⟨y, y1, y2, y3⟩ := hq
          rcases mem_mid y1 with rfl | y1
          · omega
          · exact hdist y y1 y2
        simp only at hp p2 p3
        have hmL : aM ++ bM ≠ [] → BigL H (bigOf ((pre ++ post).map sh)) ((aM ++ bM).map Prod.snd) := by
          intro hab
          have hl2 : 2 ≤ (m.es.map Prod.snd).length := by
            have := List.length_pos_iff.mpr hab
            rw [hem]; simp at this ⊢; omega
          obtain ⟨⟨v, v1, v2⟩, ⟨w, w1, w2⟩⟩ := hbal'.1 m (by simp) hl2
          have hve : v ≠ e'.2 := by rintro rfl; rw [← hp] at v2; exact hnbig v2
          have hwe : w ≠ e'.2 := by rintro rfl; rw [← hp] at w2; exact hnbig w2
          rw [hem, List.map_append, List.map_cons] at v1 w1
          rw [List.map_append (f := Prod.snd)]
          refine ⟨⟨v, ?_, hstay v v2⟩, ⟨w, ?_, hstay w w2⟩⟩
          · rw [List.take_append] at v1 ⊢
            rcases List.mem_append.mp v1 with v1 | v1
            · exact List.mem_append_left _ v1
            · by_cases hz : H - (aM.map Prod.snd).length = 0
              · rw [hz] at v1; simp at v1
              · rw [show H - (aM.map Prod.snd).length = (H - (aM.map Prod.snd).length - 1) + 1 from by omega, List.take_succ_cons] at v1
                rcases List.mem_cons.mp v1 with rfl | v1
                · exact absurd rfl hve
                · exact List.mem_append_right _ (List.take_subset_take_left _ (by omega) v1)
          · have hlm : (aM.map Prod.snd ++ e'.2 :: bM.map Prod.snd).length = aM.length + bM.length + 1 := by simp; omega
            have hlm' : (aM.map Prod.snd ++ bM.map Prod.snd).length = aM.length + bM.length := by simp
            rw [hlm] at w1
            rw [hlm']
            by_cases hbH : H ≤ bM.length
            · rw [show aM.length + bM.length + 1 - H = (aM.map Prod.snd).length + ((bM.length - H) + 1) from by simp; omega, List.drop_length_add_append, List.drop_succ_cons] at w1
              rw [show aM.length + bM.length - H = (aM.map Prod.snd).length + (bM.length - H) from by simp; omega, List.drop_length_add_append]
              exact w1
            · rw [List.drop_append_of_le_length (by simp; omega)] at w1
              rw [List.drop_append_of_le_length (by simp; omega)]
              rcases List.mem_append.mp w1 with w1 | w1
              · exact List.mem_append_left _ (List.drop_subset_drop_left _ (by omega) w1)
              · rcases List.mem_cons.mp w1 with rfl | w1
                · exact absurd rfl hwe
                · exact List.mem_append_right _ w1
        refine ⟨{ r3 with heap := put r3.heap n.p none }, (pre ++ post) :: lv3, ?_, ?_⟩
        · show ((removeLevel ops fuel r1 (level + 1) (.mem k)).bind fun s => free s.1 n.p) = _
          rw [e3, Option.bind_some]
          unfold free
          dsimp only
          rw [p3'.ext.same n.p hnM, show r1.heap n.p = some (mk K ([] ++ [])) from put_self _ _ _, Option.map_some]
        · have hlink : Link (spans r3.node W lv3) (pre ++ post) := by
            refine Link.wide p3'.wide (Link.wide ?_ (lA.append lB))
            rw [kids_append]
            simp only [List.append_assoc]
            refine (Wide.refl _).append ((Wide.refl _).append ((kids_wide ?_ _).append (Wide.refl _)))
            have := ht.chain.2.1 m (by simp)
            have hd := this.desc
            rw [hem] at hd
            exact hiAt_ge (this.key e' (by rw [hem]; simp) |>.2 |> Nat.le_of_lt) fun x hx => Nat.le_of_lt (hd.cross x hx e' (by simp))
          refine ⟨st_lower p3'.st h0 hlink (fun y hy => h.chain.2.1 y (hold y hy)) (fun _ => h.others) ?_ ?_ ?_ ?_ ?_ ?_ ?_,
            rext_lower p3'.ext rfl hr1 rfl ?_ ?_ ?_, ?_, bal_cons.mpr ⟨p3'.keep _ (fun y hy => ?_) hmL, p3'.bal⟩, fun big b1 _ => b1, fun hh => by simp at hh, ?_⟩
          · intro t0 _ y hy
            obtain ⟨t1, t2, _, w, t3⟩ := p3'.top t0
            have hb := hmL (by rw [t3]; simp)
            rw [t3] at hb
            obtain ⟨⟨v, v1, v2⟩, _⟩ := hb
            have : v = w.2 := by simpa using List.mem_of_mem_take v1
            rw [bigOf_map] at v2
            obtain ⟨z, z1, z2, z3⟩ := v2
            have hone : (pre ++ post).length = 1 := by
              have hl := hlink.ptrs
              rw [t0] at hl
              have := congrArg List.length hl
              simpa [spans] using this.symm
            obtain ⟨u, hu⟩ := List.length_eq_one_iff.mp hone
            rw [hu] at z1 hy
            simp only [List.mem_singleton] at z1 hy
            rw [hy, ← z1]; exact z3
          · intro y hy
            rw [hout y.p (h.apart (hold y hy)) (hdist y hy)]
            exact h.hold.head y (hold y hy)
          · intro hh
            obtain ⟨y, hy, e⟩ := List.mem_map.mp hh
            exact hdist y hy e
          · exact fun hh => hnM (p3'.ext.sub _ hh)
          · have hd := h.nodup
            rw [ptrs_cons] at hd
            have hd := (List.nodup_append.mp hd).1
            rw [List.map_append, List.map_cons, List.perm_middle.nodup_iff] at hd
            rw [List.map_append]
            exact (List.nodup_cons.mp hd).2
          · exact fun y hy hh => h.apart (hold y hy) (p3'.ext.sub _ hh)
          · intro y hy
            rw [p3'.ext.calls]
            exact h.low y.p (by rw [ptrs_cons]; exact List.mem_append_left _ (List.mem_map.mpr ⟨y, hold y hy, rfl⟩))
          · intro q hq
            obtain ⟨y, hy, rfl⟩ := List.mem_map.mp hq
            exact List.mem_map.mpr ⟨y, hold y hy, rfl⟩
          · intro q hq
            obtain ⟨y, hy, rfl⟩ := List.mem_map.mp hq
            rcases mem_mid hy with rfl | hy
            · exact Or.inr rfl
            · exact Or.inl (List.mem_map.mpr ⟨y, hy, rfl⟩)
          · exact List.mem_map.mpr ⟨n, hmemn, rfl⟩
          · rw [spans, kidsOf_append]; simp only [List.append_nil, kids]; exact Wide.refl _
          · exact (hbal'.1 y (by simp at hy ⊢; grind)).mono fun v _ hb => hstay v hb
          · intro L R' hh
            simp only [List.cons.injEq] at hh
            rw [← hh.1]
            simp [flat_append]
      · have hs := hst1 (fun _ => hemp) (fun hr => absurd hr hrest)
        have hkr : ∃ k2, key.read r1.heap = some k2 ∧ n1.lo ≤ k2 ∧ k2 < n1.hi := by
          rcases hkey with rfl | ⟨rfl, _, hb⟩
          · exact ⟨k, rfl, hlo, hhi⟩
          · cases b with
            | nil => exact absurd rfl hb
            | cons x b =>
              refine ⟨x.1, ?_, ok1.key x (by simp [n1])⟩
              rw [Key.read, show r1.heap n.p = some (mk K (a ++ x :: b)) from put_self _ _ _, Option.bind_some, keyAt_mk rfl]
        obtain ⟨k2, hk1, hk2, hk3⟩ := hkr
        obtain ⟨r', lv', e1, e2⟩ := rebal_ok (n := n1) (big0 := bigOf ((pre ++ n :: post).map sh)) hKH hH h0 hdown hs hrest hfew hk1 hk2 hk3 hbal'.2 hbal'.1 (by
          intro q hq hqn
          rw [bigOf_map] at hq ⊢
          obtain ⟨y, y1, y2, y3⟩ := hq
          rcases mem_mid y1 with rfl | y1
          · exact absurd y2.symm hqn
          · exact ⟨y, y1, y2, y3⟩)
        exact ⟨r', lv', e1, e2.before hpt hr1 rfl⟩
  · rw [if_neg hfew]
    refine ⟨_, _, rfl, done (fun _ hh => by rw [hh] at hfew; simp at hfew; omega) (fun _ _ => by omega) (bal_cons.mpr ⟨hbal'.1.mono fun q hq => ?_, hbal'.2⟩)⟩
    rw [bigOf_map] at hq ⊢
    obtain ⟨y, y1, y2, y3⟩ := hq
    rcases mem_mid y1 with rfl | y1
    · exact ⟨n1, by simp, y2, by show 2 ≤ (a ++ b).length; omega⟩
    · exact ⟨y, by simp at y1 ⊢; grind, y2, y3⟩

theorem removeLevel_up {level fuel k : Nat} {r : Root} {key : Key} {pre post : List GN} {n : GN} {rest : List (List GN)} {a b : List (Nat × Nat)} {e : Nat × Nat}
    (hlev : 2 ≤ level) (h : St K W level r ((pre ++ n :: post) :: rest)) (he : n.es = a ++ e :: b) (ha : ∀ x ∈ a, k < x.1) (hek : e.1 ≤ k)
    (hlo : n.lo ≤ k) (hhi : k < n.hi) (hkey : RKey key k n.p a e b) :
    removeLevel ops (fuel + 1) r level key =
      (removeSlot (removeLevel ops fuel) r level key n.p (mk K (a ++ e :: b)) a.length (a ++ e :: b).length).map fun r => (r, 0) := by
  have hmemn : n ∈ pre ++ n :: post := by simp
  have okn := h.chain.2.1 n hmemn
  have hq := h.hold.head n hmemn
  rw [he] at hq
  obtain ⟨A, c, B, f1, _, _, hp, _, _⟩ := locate h.chain hlo hhi
  have hfp := findParent_foc (by omega) h f1
  rw [← hp] at hfp
  have hkr : key.read r.heap = some k := by
    rcases hkey with rfl | ⟨rfl, hk, _⟩
    · rfl
    · rw [Key.read, hq, Option.bind_some, keyAt_mk rfl, hk]
  have hht := h.height
  simp only [List.length_cons] at hht
  rw [removeLevel, if_neg (by omega), hkr, Option.bind_some, hfp, Option.bind_some]
  try dsimp only
  rw [hq, Option.bind_some]
  try dsimp only
  rw [if_neg (by omega), findIndex_mk K k ha (by simpa using hek), fillIndex_mk (fun x hx => okn.val x (by rw [he]; exact hx)) (by simp)]

theorem down_all (hKH : K = 2 * H) (hH : 2 ≤ H) : ∀ (R : List (List GN)) (fuel : Nat), R.length < fuel → Down H K W ops fuel R := by
  intro R
  induction R with
  | nil =>
    intro fuel hf level r pre n post a e b k key hlev h he ha hek hlo hhi hkey hbal
    obtain ⟨fuel, rfl⟩ : ∃ f, fuel = f + 1 := ⟨fuel - 1, by omega⟩
    obtain ⟨r', lv', e1, e2⟩ := slot_ok (ops := ops) (fuel := fuel) (key := key) hKH hH (by omega) (by simp) h he hlo hhi hkey hbal
    exact ⟨r', 0, lv', by rw [removeLevel_up hlev h he ha hek hlo hhi hkey, e1]; rfl, e2⟩
  | cons M R ih =>
    intro fuel hf level r pre n post a e b k key hlev h he ha hek hlo hhi hkey hbal
    obtain ⟨fuel, rfl⟩ : ∃ f, fuel = f + 1 := ⟨fuel - 1, by omega⟩
    obtain ⟨r', lv', e1, e2⟩ := slot_ok (ops := ops) (fuel := fuel) (key := key) hKH hH (by omega) (by
      intro M' R' hh
      simp only [List.cons.injEq] at hh
      rw [← hh.2]
      exact ih fuel (by simp at hf; omega)) h he hlo hhi hkey hbal
    exact ⟨r', 0, lv', by rw [removeLevel_up hlev h he ha hek hlo hhi hkey, e1]; rfl, e2⟩

end Bfdev.Btree

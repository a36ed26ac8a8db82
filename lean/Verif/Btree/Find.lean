import Verif.Btree.Ghost
/-! `bnode_find_parent`: it may lower keys, but the tree stays in shape and leads to the node that has room for the key. -/
namespace Bfdev.Btree

/-- Replace one node by one at the same address. -/
theorem ptrs_replace (pre post : List GN) (n n' : GN) (rest : List (List GN)) (h : n'.p = n.p) :
    ptrs ((pre ++ n' :: post) :: rest) = ptrs ((pre ++ n :: post) :: rest) := by
  simp [ptrs, h]

/-- Store new entries in one node of the lowest level. -/
theorem Hold.replace {K : Nat} {h : Heap} {pre post : List GN} {n n' : GN} {rest : List (List GN)} (hh : Hold K h ((pre ++ n :: post) :: rest))
    (hd : (ptrs ((pre ++ n :: post) :: rest)).Nodup) (hp : n'.p = n.p) :
    Hold K (put h n.p (some (mk K n'.es))) ((pre ++ n' :: post) :: rest) := by
  rw [ptrs_cons, List.map_append, List.map_cons] at hd
  obtain ⟨d1, d2, d3⟩ := List.nodup_append.mp hd
  obtain ⟨d4, d5, d6⟩ := List.nodup_append.mp d1
  refine Hold.cons (fun x hx => ?_) (hh.tail.congr fun q hq => put_ne _ ?_)
  · rcases List.mem_append.mp hx with hx | hx
    · rw [put_ne _ (d6 _ (List.mem_map.mpr ⟨x, hx, rfl⟩) _ (by simp))]
      exact hh.head x (by simp [hx])
    · rcases List.mem_cons.mp hx with rfl | hx
      · rw [hp, put_self]
      · rw [put_ne]
        · exact hh.head x (by simp [hx])
        · intro e
          exact (List.nodup_cons.mp d5).1 (by rw [← e]; exact List.mem_map.mpr ⟨x, hx, rfl⟩)
  · intro e
    subst e
    exact d3 n.p (by simp) n.p hq rfl

theorem Chain.replace {K W root : Nat} {leaf : Bool} {pre post : List GN} {n n' : GN} {rest : List (List GN)}
    (hc : Chain K W root leaf ((pre ++ n :: post) :: rest)) {S : List Sp} (hS : spans root W rest = S) (hl : Link S (pre ++ n' :: post)) (ok : n'.Ok K)
    (h1 : rest ≠ [] → n'.es ≠ []) (h2 : rest = [] → leaf = false → 2 ≤ n'.es.length) : Chain K W root leaf ((pre ++ n' :: post) :: rest) := by
  refine ⟨by rw [hS]; exact hl, fun x hx => ?_, fun hr x hx => ?_, fun hr hf x hx => ?_, hc.2.2.2.2⟩
  · rcases List.mem_append.mp hx with hx | hx
    · exact hc.2.1 x (by simp [hx])
    · rcases List.mem_cons.mp hx with rfl | hx
      · exact ok
      · exact hc.2.1 x (by simp [hx])
  · rcases List.mem_append.mp hx with hx | hx
    · exact hc.2.2.1 hr x (by simp [hx])
    · rcases List.mem_cons.mp hx with rfl | hx
      · exact h1 hr
      · exact hc.2.2.1 hr x (by simp [hx])
  · rcases List.mem_append.mp hx with hx | hx
    · exact hc.2.2.2.1 hr hf x (by simp [hx])
    · rcases List.mem_cons.mp hx with rfl | hx
      · exact h2 hr hf
      · exact hc.2.2.2.1 hr hf x (by simp [hx])

theorem last_split {α : Type} {l : List α} (h : l ≠ []) : ∃ a e, l = a ++ [e] :=
  ⟨l.dropLast, l.getLast h, (List.dropLast_concat_getLast h).symm⟩

/-- The search for the parent, lowering keys on the way. -/
theorem search {K W root k : Nat} (hk : k < W) : ∀ (rest : List (List GN)) (h : Heap), Chain K W root false rest → Hold K h rest →
    (ptrs rest).Nodup → ∃ h' rest' A c B, descend k h root rest.length = some (h', c.p) ∧ Foc W root k rest' A c B ∧ Chain K W root false rest' ∧
      Hold K h' rest' ∧ shape rest' = shape rest ∧ rest'.length = rest.length ∧ (∀ a, a ∉ ptrs rest → h' a = h a) ∧
      Wide (A ++ c :: B) (spans root W rest)
  | [], h, _, hh, _ => ⟨h, [], [], _, [], rfl, .top hk, trivial, hh, rfl, rfl, fun _ _ => rfl, Wide.refl _⟩
  | M :: rest, h, hc, hh, hd => by
    have hd0 := hd
    rw [ptrs_cons] at hd
    obtain ⟨h1, rest1, A, c, B, e1, f1, c1, o1, q1', l1, s1, w1⟩ := search hk rest h hc.2.2.2.2 hh.tail (List.nodup_append.mp hd).2.1
    have p1 : ptrs rest1 = ptrs rest := ptrs_of_shape q1'
    have hlM := Link.wide w1 hc.1
    obtain ⟨prem, Y, rfl, lA, lY⟩ := Link.split hlM
    obtain ⟨m, postm, rfl, q1, q2, q3, lB⟩ := Link.cons_left lY
    have hr := f1.range
    have ok := hc.2.1 m (by simp)
    have hp1 : (∀ {M' : List GN}, M'.map GN.p = (prem ++ m :: postm).map GN.p → ptrs (M' :: rest1) = ptrs ((prem ++ m :: postm) :: rest)) := by
      intro M' h'; rw [ptrs_cons, ptrs_cons, h', p1]
    have ho1 : Hold K h1 ((prem ++ m :: postm) :: rest1) := by
      refine Hold.cons (fun x hx => ?_) o1
      rw [s1 _ fun hq => (List.nodup_append.mp hd).2.2 x.p (List.mem_map.mpr ⟨x, hx, rfl⟩) x.p hq rfl]
      exact hh.head x hx
    have hc1 : Chain K W root false ((prem ++ m :: postm) :: rest1) := by
      refine ⟨?_, hc.2.1, fun hr => hc.2.2.1 ?_, fun hr => hc.2.2.2.1 ?_, c1⟩
      · rw [f1.spans]; exact hlM
      · intro h0; rw [h0] at l1; exact hr (List.length_eq_zero_iff.mp l1)
      · rw [hr] at l1; exact List.length_eq_zero_iff.mp l1.symm
    obtain ⟨a, b, es, ha, hb⟩ := exists_split k m.es
    have hlen : rest1 = [] → 2 ≤ m.es.length := fun hr => hc1.2.2.2.1 hr rfl m (by simp)
    have hne : m.es ≠ [] := by
      by_cases hr : rest1 = []
      · intro h0; have := hlen hr; rw [h0] at this; simp at this
      · exact hc1.2.2.1 hr m (by simp)
    cases b with
    | cons e b =>
      let m' : GN := ⟨m.p, c.lo, c.hi, m.es⟩
      refine ⟨h1, (prem ++ m' :: postm) :: rest1, _, _, _, ?_, .down (n := m') f1 lA lB q1 (Nat.le_refl _) hr.1 hr.2 (Nat.le_refl _) es ha (hb e rfl), ?_, ?_,
        by simp only [shape, List.map_cons, List.map_append, List.cons.injEq]; exact ⟨by simp [sh, m', es], q1'⟩, by simp [l1], fun x hx => ?_, ?_⟩
      · rw [List.length_cons, descend, e1, Option.bind_some]
        have hq := ho1.head m (by simp)
        rw [es, q1] at hq
        exact stepDown_hit hq (by rw [← es]; exact ok.len) ha (hb e rfl) (ok.val e (by rw [es]; simp))
      · refine hc1.replace f1.spans (lA.append ⟨q1, Nat.le_refl _, Nat.le_refl _, lB⟩) ⟨ok.len, ok.desc, fun x hx => ?_, ok.val⟩ (fun _ => hne) fun hr _ => hlen hr
        have := ok.key x hx
        exact ⟨by show c.lo ≤ _; omega, by show _ < c.hi; omega⟩
      · refine Hold.cons (fun x hx => ?_) o1
        rcases List.mem_append.mp hx with hx | hx
        · exact ho1.head x (by simp [hx])
        · rcases List.mem_cons.mp hx with rfl | hx
          · exact ho1.head m (by simp)
          · exact ho1.head x (by simp [hx])
      · exact s1 x fun hq => hx (by rw [ptrs_cons]; exact List.mem_append_right _ hq)
      · rw [spans, kidsOf_append, kidsOf_cons, es, kids_append]
        simp only [List.append_assoc, List.cons_append, kids]
        exact (Wide.refl _).append ((kids_wide q3 a).append ⟨rfl, Nat.le_refl _, hiAt_mono q3 a, Wide.refl _⟩)
    | nil =>
      rw [List.append_nil] at es
      subst es
      obtain ⟨a, e, es⟩ := last_split hne
      rw [es] at ha
      have hd' := ok.desc
      rw [es] at hd'
      let m' : GN := ⟨m.p, c.lo, c.hi, a ++ [(k, e.2)]⟩
      have hke : k < e.1 := ha e (by simp)
      have hok : m'.Ok K := by
        refine ⟨?_, ?_, fun x hx => ?_, fun x hx => ?_⟩
        · have := ok.len; rw [es] at this; simpa [m'] using this
        · refine List.pairwise_append.mpr ⟨hd'.left, by simp, fun x hx y hy => ?_⟩
          simp only [List.mem_singleton] at hy
          subst hy
          exact ha x (by simp [hx])
        · rcases List.mem_append.mp hx with hx | hx
          · have := ok.key x (by rw [es]; simp [hx])
            exact ⟨by show c.lo ≤ _; omega, by show _ < c.hi; omega⟩
          · simp only [List.mem_singleton] at hx
            subst hx
            exact hr
        · rcases List.mem_append.mp hx with hx | hx
          · exact ok.val x (by rw [es]; simp [hx])
          · simp only [List.mem_singleton] at hx
            subst hx
            exact ok.val e (by rw [es]; simp)
      refine ⟨put h1 m.p (some (mk K m'.es)), (prem ++ m' :: postm) :: rest1, _, _, _, ?_,
        .down (n := m') f1 lA lB q1 (Nat.le_refl _) hr.1 hr.2 (Nat.le_refl _) rfl (fun x hx => ha x (by simp [hx])) (Nat.le_refl _), ?_, ?_,
        by simp only [shape, List.map_cons, List.map_append, List.cons.injEq]; exact ⟨by simp [sh, m', es], q1'⟩, by simp [l1], fun x hx => ?_, ?_⟩
      · rw [List.length_cons, descend, e1, Option.bind_some]
        have hq := ho1.head m (by simp)
        rw [es, q1] at hq
        rw [q1]
        exact stepDown_miss hq (by rw [← es]; exact ok.len) ha
      · refine hc1.replace f1.spans (lA.append ⟨q1, Nat.le_refl _, Nat.le_refl _, lB⟩) hok (fun _ => by simp [m']) fun hr _ => ?_
        have := hlen hr
        rw [es] at this
        simpa [m'] using this
      · refine Hold.replace ho1 ?_ rfl
        rw [hp1 rfl]; exact hd0
      · rw [put_ne]
        · exact s1 x fun hq => hx (by rw [ptrs_cons]; exact List.mem_append_right _ hq)
        · rintro rfl
          exact hx (by rw [ptrs_cons]; simp)
      · rw [spans, kidsOf_append, kidsOf_cons, es, kids_append]
        simp only [List.append_assoc, kids, List.nil_append, List.cons_append]
        exact (Wide.refl _).append ((kids_wide q3 a).append ⟨rfl, by show k ≤ e.1; omega, hiAt_mono q3 a, Wide.refl _⟩)

theorem findParent_foc {K W level : Nat} {r : Root} {N : List GN} {rest : List (List GN)} {k : Nat} {A c B} (h0 : 0 < level) (h : St K W level r (N :: rest))
    (hf : Foc W r.node k rest A c B) : findParent r k level = some (r, c.p) := by
  have ht := h.tail h0
  unfold findParent
  rw [show r.height - level = rest.length from by have := ht.height; omega, hf.descend ht.chain ht.hold]
  rfl

/-- `bnode_find_parent` at a level: keys above may be lowered, then the search for the key ends at the node found, whose interval has the key. -/
theorem findParent_ok {K W level : Nat} {r : Root} {N : List GN} {rest : List (List GN)} {k : Nat} (h0 : 0 < level) (h : St K W level r (N :: rest)) (hk : k < W) :
    ∃ h' rest' pre n n' post A c B, findParent r k level = some ({ r with heap := h' }, n.p) ∧ findParent { r with heap := h' } k level = some ({ r with heap := h' }, n.p) ∧
      N = pre ++ n :: post ∧ n' = ⟨n.p, c.lo, c.hi, n.es⟩ ∧ St K W level { r with heap := h' } ((pre ++ n' :: post) :: rest') ∧
      Foc W r.node k rest' A c B ∧ Link A pre ∧ Link B post ∧ n.p = c.p ∧ shape rest' = shape rest ∧ (∀ a, a ∉ ptrs rest → h' a = r.heap a) ∧
      (∀ n ∈ N, h' n.p = some (mk K n.es)) := by
  have ht := h.tail h0
  have htc := ht.chain
  rw [show (level + 1 == 1) = false from by simp; omega] at htc
  obtain ⟨h', rest', A, c, B, e1, f1, c1, o1, q1', l1, s1, w1⟩ := search hk rest r.heap htc ht.hold ht.nodup
  have p1 : ptrs rest' = ptrs rest := ptrs_of_shape q1'
  have hl := Link.wide w1 h.chain.1
  obtain ⟨pre, Y, rfl, lA, lY⟩ := Link.split hl
  obtain ⟨n, post, rfl, q1, q2, q3, lB⟩ := Link.cons_left lY
  have hh : ∀ x ∈ pre ++ n :: post, h' x.p = some (mk K x.es) := fun x hx => by
    rw [s1 _ (h.apart hx)]
    exact h.hold.head x hx
  have ok := h.chain.2.1 n (by simp)
  have hr := f1.range
  have hc1 : Chain K W r.node (level == 1) ((pre ++ n :: post) :: rest') := by
    refine ⟨by rw [f1.spans]; exact hl, h.chain.2.1, fun hr => h.chain.2.2.1 ?_, fun hr => h.chain.2.2.2.1 ?_, c1⟩
    · intro h0; rw [h0] at l1; exact hr (List.length_eq_zero_iff.mp l1)
    · rw [hr] at l1; exact List.length_eq_zero_iff.mp l1.symm
  have hpt : ptrs ((pre ++ (⟨n.p, c.lo, c.hi, n.es⟩ : GN) :: post) :: rest') = ptrs ((pre ++ n :: post) :: rest) := by
    rw [ptrs_cons, ptrs_cons, p1]; simp
  have hSt : St K W level { r with heap := h' } ((pre ++ (⟨n.p, c.lo, c.hi, n.es⟩ : GN) :: post) :: rest') :=
    { height := by have := h.height; simp only [List.length_cons] at this ⊢; omega
      chain := by
        refine hc1.replace f1.spans (lA.append ⟨q1, Nat.le_refl _, Nat.le_refl _, lB⟩) ⟨ok.len, ok.desc, fun x hx => ?_, ok.val⟩
          (fun hr => hc1.2.2.1 hr n (by simp)) fun hr hf => hc1.2.2.2.1 hr hf n (by simp)
        have := ok.key x hx
        exact ⟨by show c.lo ≤ _; omega, by show _ < c.hi; omega⟩
      hold := by
        refine Hold.cons (fun x hx => ?_) o1
        rcases List.mem_append.mp hx with hx | hx
        · exact hh x (by simp [hx])
        · rcases List.mem_cons.mp hx with rfl | hx
          · exact hh n (by simp)
          · exact hh x (by simp [hx])
      nodup := by rw [hpt]; exact h.nodup
      low := by rw [hpt]; exact h.low
      fresh := fun a ha => by
        show h' a = none
        rw [s1 a fun hq => by have := (ht.low a hq).2; exact absurd ha (by show ¬ (r.calls < a); omega)]
        exact h.fresh a ha }
  refine ⟨h', rest', pre, n, _, post, A, c, B, ?_, ?_, rfl, rfl, hSt, f1, lA, lB, q1, q1', s1, hh⟩
  · unfold findParent
    rw [show r.height - level = rest.length from by have := ht.height; omega, e1, q1]
    rfl
  · rw [findParent_foc h0 hSt f1, q1]

end Bfdev.Btree

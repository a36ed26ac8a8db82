import Verif.ListSort.Lemmas
set_option linter.unusedSimpArgs false
namespace Bfdev.ListSort
open Bfdev.Dlist (Addr Heap upd upd_same upd_ne Links Ring Same)

/-! ### The stack of pending sublists, chained by the `prev` field of their first nodes -/

/-- From `p`, the pending lists `A` follow each other; the last one's `prev` is `q`. -/
def PA (s : Heap) (p : Addr) (A : List (List Addr)) (q : Addr) : Prop :=
  match A with
  | [] => p = q
  | l :: A => l ≠ [] ∧ SL s p l ∧ PA s (s.prev p) A q

theorem PA_append (s : Heap) (p : Addr) (A B : List (List Addr)) (q : Addr) : PA s p (A ++ B) q ↔ ∃ m, PA s p A m ∧ PA s m B q := by
  induction A generalizing p with
  | nil => simp [PA]
  | cons l A ih => simp [PA, ih, and_assoc]

theorem PA_frame {s s' : Heap} {p q : Addr} {A : List (List Addr)} (h : PA s p A q) (hn : ∀ z ∈ A.flatten, s'.next z = s.next z)
    (hp : ∀ z ∈ A.flatten, s'.prev z = s.prev z) : PA s' p A q := by
  induction A generalizing p with
  | nil => exact h
  | cons l A ih =>
    obtain ⟨h1, h2, h3⟩ := h
    refine ⟨h1, SL_frame h2 (fun z hz => hn z (by simp [hz])), ?_⟩
    have hpm : p ∈ l := by
      cases l with
      | nil => exact absurd rfl h1
      | cons x l => simp [h2.1]
    rw [hp p (by simp [hpm])]
    exact ih h3 (fun z hz => hn z (by simp only [List.flatten_cons, List.mem_append]; exact Or.inr hz))
      (fun z hz => hp z (by simp only [List.flatten_cons, List.mem_append]; exact Or.inr hz))

/-- The location of the pointer that follows the lists `A`. -/
def tailOf (A : List (List Addr)) : Option Addr := A.getLast?.bind List.head?

theorem tailOf_concat (A : List (List Addr)) (l : List Addr) : tailOf (A ++ [l]) = l.head? := by simp [tailOf]

theorem tailOf_mem {A : List (List Addr)} {a : Addr} (h : tailOf A = some a) : a ∈ A.flatten := by
  rcases List.eq_nil_or_concat A with rfl | ⟨A, l, rfl⟩
  · simp [tailOf] at h
  · rw [List.concat_eq_append, tailOf_concat] at *
    simp only [List.flatten_append, List.mem_append]
    exact Or.inr (by simpa using List.mem_of_head? h)

theorem load_tailOf {s : Heap} {p m : Addr} {A : List (List Addr)} (h : PA s p A m) : load s p (tailOf A) = m := by
  rcases List.eq_nil_or_concat A with rfl | ⟨A, l, rfl⟩
  · exact h
  · rw [List.concat_eq_append] at *
    obtain ⟨k, h1, h2, h3, h4⟩ := (PA_append _ _ _ _ _).1 h
    rw [tailOf_concat]
    cases l with
    | nil => exact absurd rfl h2
    | cons x l =>
      obtain ⟨rfl, _, _⟩ := h3
      exact h4

/-- Storing through that location changes where the lists `A` lead, and nothing else. -/
theorem store_tailOf {s : Heap} {p m : Addr} {A : List (List Addr)} (h : PA s p A m) (hnd : A.flatten.Nodup) (v : Addr) :
    ∃ s' p', storePrev s p (tailOf A) v = (s', p') ∧ PA s' p' A v ∧ s'.next = s.next ∧ ∀ z, z ∉ A.flatten → s'.prev z = s.prev z := by
  rcases List.eq_nil_or_concat A with rfl | ⟨A, l, rfl⟩
  · exact ⟨s, v, rfl, rfl, rfl, fun _ _ => rfl⟩
  · rw [List.concat_eq_append] at *
    obtain ⟨k, h1, h2, h3, h4⟩ := (PA_append _ _ _ _ _).1 h
    rw [tailOf_concat]
    obtain ⟨x, l, rfl⟩ := List.exists_cons_of_ne_nil h2
    obtain ⟨rfl, h5, h6⟩ := h3
    simp only [List.flatten_append, List.flatten_cons, List.flatten_nil, List.append_nil] at hnd
    refine ⟨s.setPrev k v, p, rfl, (PA_append _ _ _ _ _).2 ⟨k, PA_frame h1 (fun _ _ => rfl) (fun z hz => ?_), by simp, ⟨rfl, h5, SL_frame h6 (fun _ _ => rfl)⟩, ?_⟩, rfl, fun z hz => ?_⟩
    · have : z ≠ k := by refine nd_ne ?_; ndm hnd, hz
      simp [Heap.setPrev, upd, this]
    · simp [PA, Heap.setPrev]
    · have : z ≠ k := fun e => hz (by simp [e])
      simp [Heap.setPrev, upd, this]

theorem PA_head_ne {s : Heap} {p : Addr} {B : List (List Addr)} (h : PA s p B 0) (hb : B ≠ []) : p ≠ 0 := by
  obtain ⟨l, B, rfl⟩ := List.exists_cons_of_ne_nil hb
  exact fun e => h.1 ((SL_zero h.2.1).1 e)

theorem skip_ok (s : Heap) (p : Addr) : ∀ (f : Nat) (bits : Nat) (A B : List (List Addr)) (m : Addr), PA s p A m → PA s m B 0 → bits < 2 ^ f →
    bits < 2 ^ B.length → ∃ A' B' bits' m', B = A' ++ B' ∧ skip s p (f + 1) (tailOf A) bits = some (tailOf (A ++ A'), bits') ∧
      bits' % 2 = 0 ∧ bits + 1 = 2 ^ A'.length * (bits' + 1) ∧ PA s p (A ++ A') m' ∧ PA s m' B' 0 := by
  intro f
  induction f with
  | zero =>
    intro bits A B m hA hB h1 h2
    have : bits = 0 := by simpa using h1
    subst this
    exact ⟨[], B, 0, m, rfl, by simp [skip], rfl, by simp, by simpa using hA, hB⟩
  | succ f ih =>
    intro bits A B m hA hB h1 h2
    rw [skip]
    by_cases hb : bits % 2 = 1
    · rw [if_pos hb, load_tailOf hA]
      cases B with
      | nil => simp at h2; omega
      | cons l B =>
        have hm := PA_head_ne hB (by simp)
        simp only [deref, if_neg hm, bind, Option.bind]
        obtain ⟨k1, k2, k3⟩ := hB
        have ht : some m = tailOf (A ++ [l]) := by
          rw [tailOf_concat]
          cases l with
          | nil => exact absurd rfl k1
          | cons x l => rw [k2.1]; rfl
        rw [ht]
        obtain ⟨A', B', bits', m', e1, e2, e3, e4, e5, e6⟩ := ih (bits / 2) (A ++ [l]) B (s.prev m)
          ((PA_append _ _ _ _ _).2 ⟨m, hA, k1, k2, rfl⟩) k3 (by rw [Nat.pow_succ] at h1; omega)
          (by rw [List.length_cons, Nat.pow_succ] at h2; omega)
        refine ⟨l :: A', B', bits', m', by rw [e1]; rfl, by rw [e2]; simp, e3, ?_, by simpa using e5, e6⟩
        rw [List.length_cons, Nat.pow_succ, Nat.mul_right_comm, ← e4]
        omega
    · rw [if_neg hb]
      exact ⟨[], B, bits, m, rfl, by simp, by omega, by simp, by simpa using hA, hB⟩

/-- What the sublists on the stack have to do with the elements consumed so far. -/
structure Content (cmp : Addr → Addr → Int) (Ls : List (List Addr)) (P : List Addr) : Prop where
  sorted : ∀ l ∈ Ls, l.Pairwise (fun a b => cmp a b ≤ 0)
  perm : Ls.flatten.Perm P
  stable : ∀ x, Ls.reverse.flatten.filter (eqv cmp x) = P.filter (eqv cmp x)

theorem Content.merge {cmp : Addr → Addr → Int} (hc : TotalPreorder cmp) {A : List (List Addr)} {l2 l1 : List Addr} {R : List (List Addr)} {P : List Addr}
    (h : Content cmp (A ++ l2 :: l1 :: R) P) : Content cmp (A ++ mg cmp l1 l2 :: R) P := by
  refine ⟨fun l hl => ?_, ?_, fun x => ?_⟩
  · simp only [List.mem_append, List.mem_cons] at hl
    rcases hl with hl | rfl | hl
    · exact h.sorted l (by simp [hl])
    · exact mg_sorted hc (h.sorted _ (by simp)) (h.sorted _ (by simp))
    · exact h.sorted l (by simp [hl])
  · refine List.Perm.trans ?_ h.perm
    simp only [List.flatten_append, List.flatten_cons]
    refine List.Perm.append_left _ ?_
    rw [← List.append_assoc]
    exact ((mg_perm cmp l1 l2).trans List.perm_append_comm).append_right _
  · rw [← h.stable x]
    have := mg_filter hc x (h.sorted l1 (by simp)) (h.sorted l2 (by simp))
    simp [List.filter_append, this]

theorem Content.push {cmp : Addr → Addr → Int} {Ls : List (List Addr)} {P : List Addr} (h : Content cmp Ls P) (x : Addr) :
    Content cmp ([x] :: Ls) (P ++ [x]) := by
  refine ⟨fun l hl => ?_, ?_, fun z => ?_⟩
  · rcases List.mem_cons.1 hl with rfl | hl
    · simp
    · exact h.sorted l hl
  · simp only [List.flatten_cons, List.singleton_append]
    exact (h.perm.cons x).trans (List.perm_append_comm (l₁ := [x]))
  · simp only [List.reverse_cons, List.flatten_append, List.filter_append, h.stable z]
    simp

theorem sortLoop_ok {cmp : Addr → Addr → Int} (hc : TotalPreorder cmp) (mfuel : Nat) : ∀ (fuel : Nat) (s : Heap) (pending node count : Nat)
    (Ls : List (List Addr)) (P R : List Addr), PA s pending Ls 0 → SL s node R → (Ls.flatten ++ R).Nodup → Content cmp Ls P →
    count < 2 ^ Ls.length → count < 2 ^ 32 → (P ≠ [] → Ls ≠ []) → (2 ≤ P.length → 2 ≤ Ls.length) → P.length + R.length ≤ mfuel → R.length < fuel →
    ∃ s' p' Ls', sortLoop cmp mfuel fuel s pending node count = some (s', p') ∧ PA s' p' Ls' 0 ∧ Content cmp Ls' (P ++ R) ∧
      (2 ≤ P.length + R.length → 2 ≤ Ls'.length) ∧ ∀ z, z ∉ Ls.flatten ++ R → Same s s' z := by
  intro fuel
  induction fuel with
  | zero => intro s pending node count Ls P R _ _ _ _ _ _ _ _ _ hf; omega
  | succ fuel ih =>
    intro s pending node count Ls P R hPA hSL hnd hC hcl hc32 hne h2 hmf hf
    rw [sortLoop]
    cases R with
    | nil =>
      rw [if_pos (show node = 0 from hSL)]
      exact ⟨s, pending, Ls, rfl, hPA, by simpa using hC, by simpa using h2, fun _ _ => ⟨rfl, rfl⟩⟩
    | cons x R =>
      obtain ⟨rfl, hx0, hR⟩ := hSL
      rw [if_neg hx0]
      obtain ⟨A, B, bits', m', e1, e2, e3, e4, e5, e6⟩ := skip_ok s pending 32 count [] Ls pending rfl hPA hc32 hcl
      simp only [List.nil_append] at e2 e5
      have e2' : skip s pending 33 none count = some (tailOf A, bits') := e2
      rw [e2']
      simp only [bind, Option.bind]
      have hlenA : Ls.length = A.length + B.length := by rw [e1]; simp
      -- the state after the optional merge
      have key : ∃ s1 p1 Ls1, mergePending cmp mfuel s pending (tailOf A) bits' = some (s1, p1) ∧ PA s1 p1 Ls1 0 ∧ Content cmp Ls1 P ∧ (count + 1) < 2 ^ (Ls1.length + 1) ∧
          (P ≠ [] → 1 ≤ Ls1.length) ∧ ∀ z, z ∉ Ls.flatten → Same s s1 z := by
        unfold mergePending
        by_cases hb : bits' = 0
        · subst hb
          rw [if_neg (by simp)]
          refine ⟨s, pending, Ls, rfl, hPA, hC, ?_, fun h => ?_, fun _ _ => ⟨rfl, rfl⟩⟩
          · rw [Nat.pow_succ]; omega
          · have := hne h
            cases Ls with
            | nil => exact absurd rfl this
            | cons l Ls => simp
        · rw [if_pos hb, load_tailOf e5]
          -- at least two more lists
          have hk : A.length + 2 ≤ Ls.length := by
            apply Nat.lt_of_not_le
            intro hle
            have h1 : 2 ^ Ls.length ≤ 2 ^ (A.length + 1) := Nat.pow_le_pow_right (by omega) (by omega)
            have h2 : 2 ^ A.length * 3 ≤ 2 ^ A.length * (bits' + 1) := Nat.mul_le_mul_left _ (by omega)
            rw [Nat.pow_succ] at h1
            have : 0 < 2 ^ A.length := Nat.pow_pos (by omega)
            omega
          obtain ⟨l2, B, rfl⟩ := List.exists_cons_of_ne_nil (l := B) (by intro e; subst e; simp at hlenA; omega)
          obtain ⟨l1, B, rfl⟩ := List.exists_cons_of_ne_nil (l := B) (by intro e; subst e; simp at hlenA; omega)
          obtain ⟨g1, g2, g3, g4, g5⟩ := e6
          have hm : m' ≠ 0 := fun e => g1 ((SL_zero g2).1 e)
          have hm1 : s.prev m' ≠ 0 := fun e => g3 ((SL_zero g4).1 e)
          simp only [deref, if_neg hm, if_neg hm1, bind, Option.bind]
          subst e1
          simp only [List.flatten_append, List.flatten_cons] at hnd
          have hle : l1.length + l2.length ≤ mfuel := by
            have := hC.perm.length_eq
            simp only [List.flatten_append, List.flatten_cons, List.length_append] at this
            omega
          obtain ⟨s1, h, r1, r2, r3, r4⟩ := merge_ok cmp g4 g2 g3 g1 (by ndn hnd) hle
          rw [r1]
          simp only
          have hmg : mg cmp l1 l2 ≠ [] := mg_ne_nil cmp g3
          have hhm : h ∈ l1 ++ l2 := by
            refine (mg_perm cmp l1 l2).mem_iff.1 ?_
            obtain ⟨y, t, e⟩ := List.exists_cons_of_ne_nil hmg
            rw [e] at r4 ⊢
            rw [r4.1]; simp
          have hpm : s.prev m' ∈ l1 := by
            obtain ⟨y, t, e⟩ := List.exists_cons_of_ne_nil g3
            rw [e] at g4 ⊢
            rw [g4.1]; simp
          -- lists before and after are untouched by the merge
          have hA1 : PA (s1.setPrev h (s1.prev (s.prev m'))) pending A m' := by
            refine PA_frame e5 (fun z hz => r3 z (by ndm hnd, hz)) (fun z hz => ?_)
            have : z ∉ l1 ++ l2 := by ndm hnd, hz
            have : z ≠ h := fun e => this (e ▸ hhm)
            simp only [Heap.setPrev, upd, if_neg this, r2]
          have hndA : A.flatten.Nodup := by ndn hnd
          obtain ⟨s2, p2, q1, q2, q3, q4⟩ := store_tailOf hA1 hndA h
          rw [q1]
          refine ⟨s2, p2, A ++ mg cmp l1 l2 :: B, rfl, ?_, hC.merge hc, ?_, fun _ => by simp; omega, fun z hz => ?_⟩
          · refine (PA_append _ _ _ _ _).2 ⟨h, q2, hmg, SL_frame r4 (fun z hz => by rw [q3]; rfl), ?_⟩
            have hhA : h ∉ A.flatten := by ndm hnd, hhm
            have e : s2.prev h = s.prev (s.prev m') := by
              rw [q4 h hhA]
              simp [Heap.setPrev, r2]
            rw [e]
            refine PA_frame g5 (fun z hz => ?_) (fun z hz => ?_)
            · rw [q3]; exact r3 z (by ndm hnd, hz)
            · rw [q4 z (by ndm hnd, hz)]
              have : z ∉ l1 ++ l2 := by ndm hnd, hz
              have : z ≠ h := fun e => this (e ▸ hhm)
              simp only [Heap.setPrev, upd, if_neg this, r2]
          · have hlen : (A ++ mg cmp l1 l2 :: B).length + 1 = (A ++ l2 :: l1 :: B).length := by simp; omega
            rw [hlen]
            -- `count` is not all ones
            have hlt : count + 1 ≤ 2 ^ (A ++ l2 :: l1 :: B).length := hcl
            refine Nat.lt_of_le_of_ne hlt (fun e => ?_)
            rw [e4] at e
            have hodd : (bits' + 1) % 2 = 1 := by omega
            have h3 : 2 ^ (A ++ l2 :: l1 :: B).length = 2 ^ A.length * 2 ^ (B.length + 2) := by
              rw [← Nat.pow_add]; simp
            rw [h3] at e
            have := Nat.eq_of_mul_eq_mul_left (Nat.pow_pos (by omega)) e
            rw [this, Nat.pow_succ] at hodd
            omega
          · have hz1 : z ∉ l1 ++ l2 := fun h => hz (by simp only [List.flatten_append, List.flatten_cons, List.mem_append] at h ⊢; grind)
            have hzA : z ∉ A.flatten := fun h => hz (by simp only [List.flatten_append, List.mem_append]; exact Or.inl h)
            have hzh : z ≠ h := fun e => hz1 (e ▸ hhm)
            refine ⟨by rw [q3]; exact r3 z hz1, ?_⟩
            rw [q4 z hzA]
            simp only [Heap.setPrev, upd, if_neg hzh, r2]
      obtain ⟨s1, p1, Ls1, k1, k2, k3, k4, k5, k6⟩ := key
      rw [k1]
      simp only
      have hsame1 : s1.next node = s.next node := (k6 node (by nds hnd)).1
      have hp1 : ∀ z, z ∈ Ls1.flatten ↔ z ∈ Ls.flatten := fun z => (k3.perm.trans hC.perm.symm).mem_iff
      have hnd1 : (Ls1.flatten ++ node :: R).Nodup := (((k3.perm.trans hC.perm.symm).append_right _).nodup_iff).2 hnd
      have hs2 : ∀ z, z ≠ node → Same s1 ((s1.setPrev node p1).setNext node 0) z := fun z hz => by
        simp [Same, Heap.setPrev, Heap.setNext, upd, hz]
      obtain ⟨s', p', Ls', t1, t2, t3, t4, t5⟩ := ih ((s1.setPrev node p1).setNext node 0) node ((s1.setPrev node p1).next node) ((count + 1) % 2 ^ 32)
        ([node] :: Ls1) (P ++ [node]) R
        ⟨by simp, ⟨rfl, hx0, by simp [SL, Heap.setNext]⟩, by
          have e : ((s1.setPrev node p1).setNext node 0).prev node = p1 := by simp [Heap.setPrev, Heap.setNext]
          rw [e]
          exact PA_frame k2 (fun z hz => (hs2 z (by refine nd_ne ?_; ndm hnd1, hz)).1) (fun z hz => (hs2 z (by refine nd_ne ?_; ndm hnd1, hz)).2)⟩
        (by
          have e : (s1.setPrev node p1).next node = s.next node := hsame1
          rw [e]
          refine SL_frame hR (fun z hz => ?_)
          rw [(hs2 z (by refine nd_ne ?_; ndm hnd, hz)).1]
          exact (k6 z (by ndm hnd, hz)).1)
        (by ndn hnd1) (k3.push node)
        (by simp only [List.length_cons]; exact Nat.lt_of_le_of_lt (Nat.mod_le _ _) k4)
        (Nat.mod_lt _ (by decide)) (by simp)
        (fun h => by
          have : P ≠ [] := by intro e; simp [e] at h
          have := k5 this
          simp only [List.length_cons]; omega)
        (by simp only [List.length_append, List.length_cons, List.length_nil] at hmf ⊢; omega)
        (by simp only [List.length_cons] at hf; omega)
      refine ⟨s', p', Ls', t1, t2, by simpa using t3, fun h => t4 (by simp at h ⊢; omega), fun z hz => ?_⟩
      have hzn : z ≠ node := fun e => hz (by simp [e])
      have hz1 : z ∉ Ls.flatten := fun h => hz (by simp only [List.mem_append]; exact Or.inl h)
      refine ((k6 z hz1).trans (hs2 z hzn)).trans (t5 z (fun h => hz ?_))
      simp only [List.flatten_cons, List.mem_append, List.mem_cons, List.mem_singleton, hp1] at h ⊢
      grind

theorem collapse_ok {cmp : Addr → Addr → Int} (hc : TotalPreorder cmp) (mfuel : Nat) : ∀ (fuel : Nat) (s : Heap) (p node : Addr)
    (Ls : List (List Addr)) (m : List Addr) (P : List Addr), PA s p Ls 0 → Ls ≠ [] → SL s node m → m ≠ [] → (m ++ Ls.flatten).Nodup → Content cmp (m :: Ls) P →
    (m ++ Ls.flatten).length ≤ mfuel → Ls.length ≤ fuel →
    ∃ s' p' n' l' m', collapse cmp mfuel fuel s p node = some (s', p', n') ∧ SL s' p' l' ∧ l' ≠ [] ∧ SL s' n' m' ∧ m' ≠ [] ∧
      Content cmp [m', l'] P ∧ ∀ z, z ∉ m ++ Ls.flatten → Same s s' z := by
  intro fuel
  induction fuel with
  | zero => intro s p node Ls m P _ h _ _ _ _ _ hf; exact absurd (List.eq_nil_of_length_eq_zero (by omega)) h
  | succ fuel ih =>
    intro s p node Ls m P hPA hLs hm hm0 hnd hC hmf hf
    have hp0 := PA_head_ne hPA hLs
    obtain ⟨l, Ls, rfl⟩ := List.exists_cons_of_ne_nil hLs
    obtain ⟨h1, h2, h3⟩ := hPA
    simp only [collapse, deref, if_neg hp0, bind, Option.bind]
    by_cases hz : s.prev p = 0
    · rw [if_pos hz]
      have : Ls = [] := Classical.byContradiction (fun h => PA_head_ne h3 h hz)
      subst this
      exact ⟨s, p, node, l, m, rfl, h2, h1, hm, hm0, hC, fun _ _ => ⟨rfl, rfl⟩⟩
    · rw [if_neg hz]
      simp only [List.flatten_cons, List.length_append] at hmf
      simp only [List.flatten_cons] at hnd
      obtain ⟨s1, h, r1, r2, r3, r4⟩ := merge_ok cmp (fuel := mfuel) h2 hm h1 hm0 (by ndn hnd) (by omega)
      rw [r1]
      simp only
      have hL : Ls ≠ [] := by rintro rfl; exact hz h3
      have hp := mg_perm cmp l m
      have hnd' : (mg cmp l m ++ Ls.flatten).Nodup := ((hp.append_right _).nodup_iff).2 (by ndn hnd)
      have hlen := hp.length_eq
      obtain ⟨s', p', n', l', m', t1, t2, t3, t4, t5, t6, t7⟩ := ih s1 (s.prev p) h Ls (mg cmp l m) P
        (PA_frame h3 (fun z hz => r3 z (by ndm hnd, hz)) (fun z hz => by rw [r2])) hL r4 (mg_ne_nil cmp h1) hnd'
        (Content.merge hc (A := []) hC) (by simp only [List.length_append] at hlen ⊢; omega) (by simp only [List.length_cons] at hf; omega)
      refine ⟨s', p', n', l', m', t1, t2, t3, t4, t5, t6, fun z hz => ?_⟩
      have hz1 : z ∉ l ++ m := fun h => hz (by simp only [List.flatten_cons, List.mem_append] at h ⊢; grind)
      refine Same.trans ⟨r3 z hz1, by rw [r2]⟩ (t7 z (fun h => hz ?_))
      have hm := hp.mem_iff (a := z)
      simp only [List.flatten_cons, List.mem_append] at h hm ⊢
      grind

end Bfdev.ListSort

import Verif.ListSort.Spec
import Verif.Dlist.Lemmas
import Verif.Common.Nodup
set_option linter.unusedSimpArgs false
namespace Bfdev.ListSort
open Bfdev.Dlist (Addr Heap upd upd_same upd_ne Links Ring Same)

/-! ### Merging sorted sequences -/

def mg (cmp : Addr → Addr → Int) (l1 l2 : List Addr) : List Addr := List.merge l1 l2 (fun a b => decide (cmp a b ≤ 0))

theorem mg_nil_left (cmp : Addr → Addr → Int) (l : List Addr) : mg cmp [] l = l := by simp [mg]
theorem mg_nil_right (cmp : Addr → Addr → Int) (l : List Addr) : mg cmp l [] = l := by simp [mg]
theorem mg_le (cmp : Addr → Addr → Int) {a b : Addr} {l r : List Addr} (h : cmp a b ≤ 0) : mg cmp (a :: l) (b :: r) = a :: mg cmp l (b :: r) := by
  simp [mg, List.merge, h]
theorem mg_gt (cmp : Addr → Addr → Int) {a b : Addr} {l r : List Addr} (h : ¬ cmp a b ≤ 0) : mg cmp (a :: l) (b :: r) = b :: mg cmp (a :: l) r := by
  simp only [mg, List.merge, h]
  simp

theorem mg_perm (cmp : Addr → Addr → Int) (l1 l2 : List Addr) : (mg cmp l1 l2).Perm (l1 ++ l2) := List.merge_perm_append _

theorem mg_sorted {cmp : Addr → Addr → Int} (hc : TotalPreorder cmp) {l1 l2 : List Addr} (h1 : l1.Pairwise (fun a b => cmp a b ≤ 0))
    (h2 : l2.Pairwise (fun a b => cmp a b ≤ 0)) : (mg cmp l1 l2).Pairwise (fun a b => cmp a b ≤ 0) := by
  have := List.pairwise_merge (le := fun a b => decide (cmp a b ≤ 0)) (fun a b c => by simpa using hc.trans a b c) (fun a b => by simpa using hc.total a b) l1 l2
    (by simpa using h1) (by simpa using h2)
  simpa [mg] using this

theorem mg_filter {cmp : Addr → Addr → Int} (hc : TotalPreorder cmp) (x : Addr) {l1 l2 : List Addr} (h1 : l1.Pairwise (fun a b => cmp a b ≤ 0))
    (h2 : l2.Pairwise (fun a b => cmp a b ≤ 0)) : (mg cmp l1 l2).filter (eqv cmp x) = l1.filter (eqv cmp x) ++ l2.filter (eqv cmp x) := by
  generalize hn : l1.length + l2.length = n
  induction n generalizing l1 l2 with
  | zero =>
    have e1 : l1 = [] := List.eq_nil_of_length_eq_zero (by omega)
    have e2 : l2 = [] := List.eq_nil_of_length_eq_zero (by omega)
    simp [e1, e2, mg]
  | succ n ih =>
    cases l1 with
    | nil => simp [mg]
    | cons a l =>
      cases l2 with
      | nil => simp [mg]
      | cons b r =>
        simp only [List.length_cons] at hn
        by_cases h : cmp a b ≤ 0
        · rw [mg_le cmp h]
          have := ih h1.of_cons h2 (by simp only [List.length_cons]; omega)
          simp only [List.filter_cons, this]
          split <;> simp
        · rw [mg_gt cmp h]
          have := ih h1 h2.of_cons (by simp only [List.length_cons]; omega)
          rw [List.filter_cons, this]
          by_cases hb : eqv cmp x b = true
          · have hnone : (a :: l).filter (eqv cmp x) = [] := by
              rw [List.filter_eq_nil_iff]
              intro z hz he
              simp only [eqv, Bool.and_eq_true, decide_eq_true_eq] at hb he
              have haz : cmp a z ≤ 0 := by
                rcases List.mem_cons.1 hz with rfl | hz
                · rcases hc.total z z with h | h <;> exact h
                · exact List.rel_of_pairwise_cons h1 hz
              exact h (hc.trans _ _ _ haz (hc.trans _ _ _ he.2 hb.1))
            rw [hnone]
            simp [hb]
          · simp [hb]

theorem mg_ne_nil (cmp : Addr → Addr → Int) {l1 l2 : List Addr} (h : l1 ≠ []) : mg cmp l1 l2 ≠ [] := by
  intro e
  have := (mg_perm cmp l1 l2).length_eq
  rw [e] at this
  cases l1 with
  | nil => exact h rfl
  | cons a l => simp at this

/-! ### Null-terminated lists -/

/-- From `p`, the `next` fields run through `l` and end in NULL. -/
def SL (s : Heap) (p : Addr) : List Addr → Prop
  | [] => p = 0
  | x :: l => p = x ∧ x ≠ 0 ∧ SL s (s.next x) l

theorem SL_frame {s s' : Heap} {p : Addr} {l : List Addr} (h : SL s p l) (hs : ∀ z ∈ l, s'.next z = s.next z) : SL s' p l := by
  induction l generalizing p with
  | nil => exact h
  | cons x l ih =>
    refine ⟨h.1, h.2.1, ?_⟩
    rw [hs x (by simp)]
    exact ih h.2.2 (fun z hz => hs z (by simp [hz]))

theorem SL_zero {s : Heap} {l : List Addr} {p : Addr} (h : SL s p l) : p = 0 ↔ l = [] := by
  cases l with
  | nil => exact ⟨fun _ => rfl, fun _ => h⟩
  | cons x l => simp [h.1, h.2.1]

/-- Where a `tail` of `list_merge` leads. -/
def target (s : Heap) (node : Addr) : Option Addr → Addr
  | none => node
  | some a => s.next a

theorem storeNext_spec (s : Heap) (node : Addr) (tail : Option Addr) (v : Addr) :
    ∃ s1 n1, storeNext s node tail v = (s1, n1) ∧ s1.prev = s.prev ∧ (∀ z, tail ≠ some z → s1.next z = s.next z) ∧
      target s1 n1 tail = v ∧ (tail ≠ none → n1 = node) := by
  cases tail with
  | none => exact ⟨s, v, rfl, rfl, fun _ _ => rfl, rfl, by simp⟩
  | some a =>
    refine ⟨s.setNext a v, node, rfl, rfl, fun z hz => ?_, by simp [target, Heap.setNext], fun _ => rfl⟩
    have : z ≠ a := fun e => hz (by rw [e])
    simp [Heap.setNext, upd, this]

theorem mergeLoop_ok (cmp : Addr → Addr → Int) : ∀ (fuel : Nat) (s : Heap) (node : Addr) (tail : Option Addr) (n1 n2 : Addr) (l1 l2 : List Addr),
    SL s n1 l1 → SL s n2 l2 → l1 ≠ [] → l2 ≠ [] → (l1 ++ l2).Nodup → (∀ a, tail = some a → a ∉ l1 ++ l2) → l1.length + l2.length ≤ fuel →
    ∃ s' h, mergeLoop cmp fuel s node tail n1 n2 = some (s', h) ∧ s'.prev = s.prev ∧
      (∀ z, z ∉ l1 ++ l2 → tail ≠ some z → s'.next z = s.next z) ∧ SL s' (target s' h tail) (mg cmp l1 l2) ∧ (tail ≠ none → h = node) := by
  intro fuel
  induction fuel with
  | zero =>
    intro s node tail n1 n2 l1 l2 _ _ h1 _ _ _ hf
    exact absurd (List.eq_nil_of_length_eq_zero (by omega)) h1
  | succ fuel ih =>
    intro s node tail n1 n2 l1 l2 hs1 hs2 hl1 hl2 hnd ht hf
    obtain ⟨x, l, rfl⟩ := List.exists_cons_of_ne_nil hl1
    obtain ⟨y, r, rfl⟩ := List.exists_cons_of_ne_nil hl2
    obtain ⟨rfl, hx0, hl⟩ := hs1
    obtain ⟨rfl, hy0, hr⟩ := hs2
    have hd1 : deref n1 = some n1 := by simp [deref, hx0]
    have hd2 : deref n2 = some n2 := by simp [deref, hy0]
    simp only [mergeLoop, hd1, hd2, bind, Option.bind]
    simp only [List.length_cons] at hf
    have htail : ∀ z, z ∈ n1 :: l ++ n2 :: r → tail ≠ some z := fun z hz e => ht z e hz
    by_cases hc : cmp n1 n2 ≤ 0
    · rw [if_pos hc, mg_le cmp hc]
      obtain ⟨s1, m1, e1, hp1, hf1, ht1, hk1⟩ := storeNext_spec s node tail n1
      rw [e1]
      simp only
      have hnx : s1.next n1 = s.next n1 := hf1 n1 (htail n1 (by simp))
      have hl' : SL s1 (s1.next n1) l := by rw [hnx]; exact SL_frame hl (fun z hz => hf1 z (htail z (by simp [hz])))
      have hr' : SL s1 n2 (n2 :: r) := SL_frame ⟨rfl, hy0, hr⟩ (fun z hz => hf1 z (htail z (by simp only [List.mem_append]; exact Or.inr hz)))
      by_cases hz : s1.next n1 = 0
      · rw [if_pos hz]
        have hle : l = [] := (SL_zero hl').1 hz
        subst hle
        refine ⟨s1.setNext n1 n2, m1, rfl, hp1, fun z hz1 hz2 => ?_, ?_, hk1⟩
        · have : z ≠ n1 := fun e => hz1 (by simp [e])
          simp only [Heap.setNext, upd, if_neg this]
          exact hf1 z hz2
        · have htg : target (s1.setNext n1 n2) m1 tail = n1 := by
            refine Eq.trans ?_ ht1
            cases tail with
            | none => rfl
            | some a =>
              have : a ≠ n1 := fun e => htail n1 (by simp) (by rw [e])
              simp [target, Heap.setNext, upd, this]
          rw [htg, mg_nil_left]
          refine ⟨rfl, hx0, ?_⟩
          have e : (s1.setNext n1 n2).next n1 = n2 := by simp [Heap.setNext]
          rw [e]
          refine SL_frame hr' (fun z hz => ?_)
          have : z ≠ n1 := by refine nd_ne ?_; ndm hnd, hz
          simp [Heap.setNext, upd, this]
      · rw [if_neg hz]
        obtain ⟨s', h, r1, r2, r3, r4, r5⟩ := ih s1 m1 (some n1) (s1.next n1) n2 l (n2 :: r) hl' hr'
          (fun e => hz ((SL_zero hl').2 e)) (by simp) (by ndn hnd) (fun a ha => by cases ha; nds hnd) (by simp only [List.length_cons]; omega)
        refine ⟨s', h, r1, r2.trans hp1, fun z hz1 hz2 => ?_, ?_, fun ht' => (r5 (by simp)).trans (hk1 ht')⟩
        · rw [r3 z (fun hz => hz1 (by simp only [List.cons_append, List.mem_cons]; exact Or.inr hz))
            (fun e => by cases e; exact hz1 (by simp))]
          exact hf1 z hz2
        · have htg : target s' h tail = n1 := by
            refine Eq.trans ?_ ht1
            cases tail with
            | none => exact (r5 (by simp))
            | some a =>
              refine r3 a (fun hz => ht a rfl (by simp only [List.cons_append, List.mem_cons]; exact Or.inr hz)) (fun e => ?_)
              cases e; exact ht n1 rfl (by simp)
          rw [htg]
          exact ⟨rfl, hx0, r4⟩
    · rw [if_neg hc, mg_gt cmp hc]
      obtain ⟨s1, m1, e1, hp1, hf1, ht1, hk1⟩ := storeNext_spec s node tail n2
      rw [e1]
      simp only
      have hnx : s1.next n2 = s.next n2 := hf1 n2 (htail n2 (by simp))
      have hr' : SL s1 (s1.next n2) r := by rw [hnx]; exact SL_frame hr (fun z hz => hf1 z (htail z (by simp [hz])))
      have hl' : SL s1 n1 (n1 :: l) := SL_frame ⟨rfl, hx0, hl⟩ (fun z hz => hf1 z (htail z (by simp only [List.mem_append]; exact Or.inl hz)))
      by_cases hz : s1.next n2 = 0
      · rw [if_pos hz]
        have hle : r = [] := (SL_zero hr').1 hz
        subst hle
        refine ⟨s1.setNext n2 n1, m1, rfl, hp1, fun z hz1 hz2 => ?_, ?_, hk1⟩
        · have : z ≠ n2 := fun e => hz1 (by simp [e])
          simp only [Heap.setNext, upd, if_neg this]
          exact hf1 z hz2
        · have htg : target (s1.setNext n2 n1) m1 tail = n2 := by
            refine Eq.trans ?_ ht1
            cases tail with
            | none => rfl
            | some a =>
              have : a ≠ n2 := fun e => htail n2 (by simp) (by rw [e])
              simp [target, Heap.setNext, upd, this]
          rw [htg, mg_nil_right]
          refine ⟨rfl, hy0, ?_⟩
          have e : (s1.setNext n2 n1).next n2 = n1 := by simp [Heap.setNext]
          rw [e]
          refine SL_frame hl' (fun z hz => ?_)
          have : z ≠ n2 := by refine nd_ne ?_; ndm hnd, hz
          simp [Heap.setNext, upd, this]
      · rw [if_neg hz]
        obtain ⟨s', h, r1, r2, r3, r4, r5⟩ := ih s1 m1 (some n2) n1 (s1.next n2) (n1 :: l) r hl' hr'
          (by simp) (fun e => hz ((SL_zero hr').2 e)) (by ndn hnd) (fun a ha => by cases ha; nds hnd) (by simp only [List.length_cons]; omega)
        refine ⟨s', h, r1, r2.trans hp1, fun z hz1 hz2 => ?_, ?_, fun ht' => (r5 (by simp)).trans (hk1 ht')⟩
        · rw [r3 z (fun hz => hz1 (by simp only [List.mem_append, List.mem_cons] at hz ⊢; grind))
            (fun e => by cases e; exact hz1 (by simp))]
          exact hf1 z hz2
        · have htg : target s' h tail = n2 := by
            refine Eq.trans ?_ ht1
            cases tail with
            | none => exact (r5 (by simp))
            | some a =>
              refine r3 a (fun hz => ht a rfl (by simp only [List.mem_append, List.mem_cons] at hz ⊢; grind)) (fun e => ?_)
              cases e; exact ht n2 rfl (by simp)
          rw [htg]
          exact ⟨rfl, hy0, r4⟩

theorem merge_ok (cmp : Addr → Addr → Int) {fuel : Nat} {s : Heap} {n1 n2 : Addr} {l1 l2 : List Addr} (h1 : SL s n1 l1) (h2 : SL s n2 l2)
    (e1 : l1 ≠ []) (e2 : l2 ≠ []) (hnd : (l1 ++ l2).Nodup) (hf : l1.length + l2.length ≤ fuel) :
    ∃ s' h, merge cmp fuel s n1 n2 = some (s', h) ∧ s'.prev = s.prev ∧ (∀ z, z ∉ l1 ++ l2 → s'.next z = s.next z) ∧ SL s' h (mg cmp l1 l2) := by
  obtain ⟨s', h, r1, r2, r3, r4, _⟩ := mergeLoop_ok cmp fuel s 0 none n1 n2 l1 l2 h1 h2 e1 e2 hnd (by simp) hf
  exact ⟨s', h, r1, r2, fun z hz => r3 z hz (by simp), r4⟩

/-! ### The final pass -/

theorem relink_ok : ∀ (fuel : Nat) (s : Heap) (tail n : Addr) (l : List Addr), SL s n l → l ≠ [] → l.Nodup → tail ∉ l → l.length ≤ fuel →
    s.next tail = n → ∃ s' t, relink fuel s tail n = some (s', t) ∧ s'.next = s.next ∧ (∀ z, z ∉ l → s'.prev z = s.prev z) ∧
      ∀ (s'' : Heap) (b : Addr), s''.next t = b → s''.prev b = t → (∀ z ∈ tail :: l, z ≠ t → s''.next z = s'.next z) →
        (∀ z ∈ l, s''.prev z = s'.prev z) → Links s'' tail l b ∧ t ∈ l := by
  intro fuel
  induction fuel with
  | zero => intro s tail n l _ hl _ _ hf; exact absurd (List.eq_nil_of_length_eq_zero (by omega)) hl
  | succ fuel ih =>
    intro s tail n l hs hl hnd ht hf hn
    obtain ⟨x, l, rfl⟩ := List.exists_cons_of_ne_nil hl
    obtain ⟨rfl, hx0, hl'⟩ := hs
    simp only [relink, deref, if_neg hx0, bind, Option.bind]
    have enx : (s.setPrev n tail).next n = s.next n := rfl
    have htn : tail ≠ n := fun e => ht (by simp [e])
    rw [enx]
    by_cases hz : s.next n = 0
    · rw [if_pos hz]
      have hle : l = [] := (SL_zero hl').1 hz
      subst hle
      refine ⟨_, _, rfl, rfl, fun z hz => ?_, fun s'' b h1 h2 h3 h4 => ⟨⟨?_, ?_, h1, h2⟩, by simp⟩⟩
      · have : z ≠ n := fun e => hz (by simp [e])
        simp [Heap.setPrev, upd, this]
      · rw [h3 tail (by simp) htn]; exact hn
      · rw [h4 n (by simp)]; simp [Heap.setPrev]
    · rw [if_neg hz]
      obtain ⟨s', t, r1, r2, r3, r4⟩ := ih (s.setPrev n tail) n (s.next n) l (SL_frame hl' (fun _ _ => rfl)) (fun e => hz ((SL_zero hl').2 e))
        (by ndn hnd) (by nds hnd) (by simp only [List.length_cons] at hf; omega) rfl
      refine ⟨s', t, r1, r2, fun z hz => ?_, fun s'' b h1 h2 h3 h4 => ?_⟩
      · rw [r3 z (fun h => hz (by simp [h]))]
        have : z ≠ n := fun e => hz (by simp [e])
        simp [Heap.setPrev, upd, this]
      · obtain ⟨k1, k2⟩ := r4 s'' b h1 h2 (fun z hz => h3 z (by simp only [List.mem_cons] at hz ⊢; grind)) (fun z hz => h4 z (by simp [hz]))
        refine ⟨⟨?_, ?_, k1⟩, by simp [k2]⟩
        · rw [h3 tail (by simp) (fun e => ht (by simp [e, k2])), r2]; exact hn
        · rw [h4 n (by simp), r3 n (by nds hnd)]; simp [Heap.setPrev]

theorem finishLoop_ok (cmp : Addr → Addr → Int) : ∀ (fuel : Nat) (s : Heap) (tail n1 n2 : Addr) (l1 l2 : List Addr),
    SL s n1 l1 → SL s n2 l2 → l1 ≠ [] → l2 ≠ [] → (tail :: (l1 ++ l2)).Nodup → l1.length + l2.length ≤ fuel →
    ∃ s' t n m r, finishLoop cmp fuel s tail n1 n2 = some (s', t, n) ∧ SL s' n r ∧ r ≠ [] ∧ mg cmp l1 l2 = m ++ r ∧ t ∈ tail :: m ∧ m ≠ [] ∧
      (∀ z, z ∉ tail :: m → s'.next z = s.next z) ∧ (∀ z, z ∉ m → s'.prev z = s.prev z) ∧
      ∀ (s'' : Heap) (b : Addr), Links s'' t r b → (∀ z ∈ tail :: m, z ≠ t → s''.next z = s'.next z) → (∀ z ∈ m, s''.prev z = s'.prev z) →
        Links s'' tail (m ++ r) b := by
  intro fuel
  induction fuel with
  | zero => intro s tail n1 n2 l1 l2 _ _ h1 _ _ hf; exact absurd (List.eq_nil_of_length_eq_zero (by omega)) h1
  | succ fuel ih =>
    intro s tail n1 n2 l1 l2 hs1 hs2 hl1 hl2 hnd hf
    obtain ⟨x, l, rfl⟩ := List.exists_cons_of_ne_nil hl1
    obtain ⟨y, r, rfl⟩ := List.exists_cons_of_ne_nil hl2
    obtain ⟨rfl, hx0, hl⟩ := hs1
    obtain ⟨rfl, hy0, hr⟩ := hs2
    simp only [finishLoop, deref, if_neg hx0, if_neg hy0, bind, Option.bind]
    simp only [List.length_cons] at hf
    -- one node `v` is linked after `tail`
    have step : ∀ v, v ≠ tail → let s1 := (s.setNext tail v).setPrev v tail
        (∀ z, z ≠ tail → s1.next z = s.next z) ∧ s1.next tail = v ∧ (∀ z, z ≠ v → s1.prev z = s.prev z) ∧ s1.prev v = tail := by
      intro v hv
      refine ⟨fun z hz => by simp [Heap.setNext, Heap.setPrev, upd, hz], by simp [Heap.setNext, Heap.setPrev], fun z hz => by simp [Heap.setNext, Heap.setPrev, upd, hz], by simp [Heap.setNext, Heap.setPrev]⟩
    by_cases hc : cmp n1 n2 ≤ 0
    · rw [if_pos hc, mg_le cmp hc]
      have hne : n1 ≠ tail := by refine nd_ne ?_; nds hnd
      obtain ⟨g1, g2, g3, g4⟩ := step n1 hne
      generalize (s.setNext tail n1).setPrev n1 tail = s1 at g1 g2 g3 g4 ⊢
      have hl' : SL s1 (s1.next n1) l := by rw [g1 n1 hne]; exact SL_frame hl (fun z hz => g1 z (by refine nd_ne ?_; ndm hnd, hz))
      have hr' : SL s1 n2 (n2 :: r) := SL_frame ⟨rfl, hy0, hr⟩ (fun z hz => g1 z (by refine nd_ne ?_; ndm hnd, hz))
      by_cases hz : s1.next n1 = 0
      · rw [if_pos hz]
        have hle : l = [] := (SL_zero hl').1 hz
        subst hle
        rw [mg_nil_left]
        refine ⟨s1, n1, n2, [n1], n2 :: r, rfl, hr', by simp, rfl, by simp, by simp, fun z hz => g1 z (fun e => hz (by simp [e])), fun z hz => g3 z (fun e => hz (by simp [e])), fun s'' b k1 k2 k3 => ⟨?_, ?_, k1⟩⟩
        · rw [k2 tail (by simp) (Ne.symm hne)]; exact g2
        · rw [k3 n1 (by simp)]; exact g4
      · rw [if_neg hz]
        obtain ⟨s', t, n, m, q, r1, r2, r3, r4, r5, r6, r7, r8, r9⟩ := ih s1 n1 (s1.next n1) n2 l (n2 :: r) hl' hr'
          (fun e => hz ((SL_zero hl').2 e)) (by simp) (by ndn hnd) (by simp only [List.length_cons]; omega)
        have hm : ∀ z, z ∈ m → z ∈ l ++ n2 :: r := fun z hz => (mg_perm cmp l (n2 :: r)).mem_iff.1 (by rw [r4]; simp [hz])
        have hnm : n1 ∉ m := fun h => absurd (hm _ h) (by nds hnd)
        have htm : tail ∉ m := fun h => absurd (hm _ h) (by nds hnd)
        refine ⟨s', t, n, n1 :: m, q, r1, r2, r3, by rw [r4]; rfl, by simp only [List.mem_cons] at r5 ⊢; exact Or.inr r5, by simp, fun z hz => ?_, fun z hz => ?_, fun s'' b k1 k2 k3 => ?_⟩
        · rw [r7 z (fun h => hz (by simp only [List.mem_cons] at h ⊢; exact Or.inr h)), g1 z (fun e => hz (by simp [e]))]
        · rw [r8 z (fun h => hz (by simp [h])), g3 z (fun e => hz (by simp [e]))]
        · have ht : tail ≠ t := by
            rintro rfl
            rcases List.mem_cons.1 r5 with h | h
            · exact hne h.symm
            · exact htm h
          refine ⟨?_, ?_, r9 s'' b k1 (fun z hz => k2 z (by simp only [List.mem_cons] at hz ⊢; exact Or.inr hz)) (fun z hz => k3 z (by simp [hz]))⟩
          · rw [k2 tail (by simp) ht, r7 tail (by simp [Ne.symm hne, htm])]; exact g2
          · rw [k3 n1 (by simp), r8 n1 hnm]; exact g4
    · rw [if_neg hc, mg_gt cmp hc]
      have hne : n2 ≠ tail := by refine nd_ne ?_; nds hnd
      obtain ⟨g1, g2, g3, g4⟩ := step n2 hne
      generalize (s.setNext tail n2).setPrev n2 tail = s1 at g1 g2 g3 g4 ⊢
      have hr' : SL s1 (s1.next n2) r := by rw [g1 n2 hne]; exact SL_frame hr (fun z hz => g1 z (by refine nd_ne ?_; ndm hnd, hz))
      have hl' : SL s1 n1 (n1 :: l) := SL_frame ⟨rfl, hx0, hl⟩ (fun z hz => g1 z (by refine nd_ne ?_; ndm hnd, hz))
      by_cases hz : s1.next n2 = 0
      · rw [if_pos hz]
        have hle : r = [] := (SL_zero hr').1 hz
        subst hle
        rw [mg_nil_right]
        refine ⟨s1, n2, n1, [n2], n1 :: l, rfl, hl', by simp, rfl, by simp, by simp, fun z hz => g1 z (fun e => hz (by simp [e])), fun z hz => g3 z (fun e => hz (by simp [e])), fun s'' b k1 k2 k3 => ⟨?_, ?_, k1⟩⟩
        · rw [k2 tail (by simp) (Ne.symm hne)]; exact g2
        · rw [k3 n2 (by simp)]; exact g4
      · rw [if_neg hz]
        obtain ⟨s', t, n, m, q, r1, r2, r3, r4, r5, r6, r7, r8, r9⟩ := ih s1 n2 n1 (s1.next n2) (n1 :: l) r hl' hr'
          (by simp) (fun e => hz ((SL_zero hr').2 e)) (by ndn hnd) (by simp only [List.length_cons]; omega)
        have hm : ∀ z, z ∈ m → z ∈ n1 :: l ++ r := fun z hz => (mg_perm cmp (n1 :: l) r).mem_iff.1 (by rw [r4]; simp [hz])
        have hnm : n2 ∉ m := fun h => absurd (hm _ h) (by nds hnd)
        have htm : tail ∉ m := fun h => absurd (hm _ h) (by nds hnd)
        refine ⟨s', t, n, n2 :: m, q, r1, r2, r3, by rw [r4]; rfl, by simp only [List.mem_cons] at r5 ⊢; exact Or.inr r5, by simp, fun z hz => ?_, fun z hz => ?_, fun s'' b k1 k2 k3 => ?_⟩
        · rw [r7 z (fun h => hz (by simp only [List.mem_cons] at h ⊢; exact Or.inr h)), g1 z (fun e => hz (by simp [e]))]
        · rw [r8 z (fun h => hz (by simp [h])), g3 z (fun e => hz (by simp [e]))]
        · have ht : tail ≠ t := by
            rintro rfl
            rcases List.mem_cons.1 r5 with h | h
            · exact hne h.symm
            · exact htm h
          refine ⟨?_, ?_, r9 s'' b k1 (fun z hz => k2 z (by simp only [List.mem_cons] at hz ⊢; exact Or.inr hz)) (fun z hz => k3 z (by simp [hz]))⟩
          · rw [k2 tail (by simp) ht, r7 tail (by simp [Ne.symm hne, htm])]; exact g2
          · rw [k3 n2 (by simp), r8 n2 hnm]; exact g4

theorem finish_ok (cmp : Addr → Addr → Int) {fuel : Nat} {s : Heap} {head n1 n2 : Addr} {l1 l2 : List Addr} (h1 : SL s n1 l1) (h2 : SL s n2 l2)
    (e1 : l1 ≠ []) (e2 : l2 ≠ []) (hnd : (head :: (l1 ++ l2)).Nodup) (hf : l1.length + l2.length ≤ fuel) :
    ∃ s', finish cmp fuel s head n1 n2 = some s' ∧ Ring s' (head :: mg cmp l1 l2) ∧ ∀ z, z ∉ head :: (l1 ++ l2) → Same s s' z := by
  obtain ⟨s1, t, n, m, r, r1, r2, r3, r4, r5, r6, r7, r8, r9⟩ := finishLoop_ok cmp fuel s head n1 n2 l1 l2 h1 h2 e1 e2 hnd hf
  have hp := mg_perm cmp l1 l2
  rw [r4] at hp
  have hnd' : (head :: (m ++ r)).Nodup := ((hp.cons head).nodup_iff).2 hnd
  have htr : t ∉ r := by
    intro hz
    exact absurd r5 (by ndm hnd', hz)
  have hlen := hp.length_eq
  simp only [List.length_append] at hlen
  have hr2 : SL (s1.setNext t n) n r := SL_frame r2 (fun z hz => by
    have : z ≠ t := fun e => htr (e ▸ hz)
    simp [Heap.setNext, upd, this])
  obtain ⟨s2, t2, q1, q2, q3, q4⟩ := relink_ok fuel (s1.setNext t n) t n r hr2 r3 (by ndn hnd') htr (by omega) (by simp [Heap.setNext])
  simp only [finish, r1, q1, bind, Option.bind]
  refine ⟨_, rfl, ?_, fun z hz => ?_⟩
  · obtain ⟨k1, k2⟩ := q4 ((s2.setNext t2 head).setPrev head t2) head (by simp [Heap.setNext, Heap.setPrev]) (by simp [Heap.setNext, Heap.setPrev])
      (fun z hz hne => by simp [Heap.setNext, Heap.setPrev, upd, hne])
      (fun z hz => by
        have : z ≠ head := by refine nd_ne ?_; ndm hnd', hz
        simp [Heap.setNext, Heap.setPrev, upd, this])
    rw [r4]
    refine r9 _ _ k1 (fun z hz hne => ?_) (fun z hz => ?_)
    · have hzr : z ≠ t2 := by
        rintro rfl
        exact absurd hz (by ndm hnd', k2)
      simp [Heap.setNext, Heap.setPrev, upd, hzr, q2, hne]
    · have h1 : z ≠ head := by refine nd_ne ?_; ndm hnd', hz
      simp only [Heap.setNext, Heap.setPrev, upd, if_neg h1]
      rw [q3 z (by ndm hnd', hz)]
      rfl
  · have hz' : z ∉ head :: (m ++ r) := fun h => hz (((hp.cons head).mem_iff).1 h)
    simp only [List.mem_cons, List.mem_append, not_or] at hz'
    have ht2 : z ≠ t2 := by
      obtain ⟨_, k2⟩ := q4 ((s2.setNext t2 head).setPrev head t2) head (by simp [Heap.setNext, Heap.setPrev]) (by simp [Heap.setNext, Heap.setPrev])
        (fun z hz hne => by simp [Heap.setNext, Heap.setPrev, upd, hne])
        (fun z hz => by
          have : z ≠ head := by refine nd_ne ?_; ndm hnd', hz
          simp [Heap.setNext, Heap.setPrev, upd, this])
      rintro rfl
      exact hz'.2.2 k2
    have ht : z ≠ t := by
      rintro rfl
      rcases List.mem_cons.1 r5 with h | h
      · exact hz'.1 h
      · exact hz'.2.1 h
    constructor
    · simp only [Heap.setNext, Heap.setPrev, upd, if_neg ht2, q2, if_neg ht]
      exact r7 z (by simp [hz'.1, hz'.2.1])
    · simp only [Heap.setNext, Heap.setPrev, upd, if_neg hz'.1]
      rw [q3 z hz'.2.2]
      exact r8 z hz'.2.1

end Bfdev.ListSort

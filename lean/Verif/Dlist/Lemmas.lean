import Verif.Dlist.Spec
/-! Helper lemmas for circular lists. -/
set_option linter.unusedSimpArgs false
namespace Bfdev.Dlist

@[simp] theorem upd_same (f : Addr → Addr) (a v : Addr) : upd f a v a = v := by simp [upd]
theorem upd_ne {f : Addr → Addr} {a v x : Addr} (h : x ≠ a) : upd f a v x = f x := by simp [upd, h]

theorem links_append (s : Heap) (a : Addr) (l : List Addr) (x : Addr) (r : List Addr) (b : Addr) :
    Links s a (l ++ x :: r) b ↔ Links s a l x ∧ Links s x r b := by
  induction l generalizing a with
  | nil => simp [Links, and_assoc]
  | cons y l ih => simp [Links, ih, and_assoc]

theorem ring_rotate (s : Heap) (l : List Addr) (a : Addr) (r : List Addr) : Ring s (l ++ a :: r) ↔ Ring s (a :: (r ++ l)) := by
  cases l with
  | nil => simp
  | cons h t =>
    simp only [List.cons_append, Ring, links_append]
    exact And.comm

theorem links_frame {s s' : Heap} {a : Addr} {l : List Addr} {b : Addr} (h : Links s a l b)
    (hn : ∀ x ∈ a :: l, s'.next x = s.next x) (hp : ∀ y ∈ b :: l, s'.prev y = s.prev y) : Links s' a l b := by
  induction l generalizing a with
  | nil => exact ⟨by rw [hn a (by simp)]; exact h.1, by rw [hp b (by simp)]; exact h.2⟩
  | cons x l ih =>
    obtain ⟨h1, h2, h3⟩ := h
    refine ⟨by rw [hn a (by simp)]; exact h1, by rw [hp x (by simp)]; exact h2, ih h3 (fun z hz => hn z (by grind)) (fun z hz => hp z (by grind))⟩

/-- Two memories agree on a node. -/
def Same (s s' : Heap) (z : Addr) : Prop := s'.next z = s.next z ∧ s'.prev z = s.prev z

theorem ring_frame {s s' : Heap} {c : List Addr} (h : Ring s c) (hs : ∀ z ∈ c, Same s s' z) : Ring s' c := by
  cases c with
  | nil => exact h
  | cons a t => exact links_frame h (fun x hx => (hs x hx).1) (fun x hx => (hs x hx).2)

theorem links_prev_mem {s : Heap} {a : Addr} {l : List Addr} {b : Addr} (h : Links s a l b) : s.prev b ∈ a :: l := by
  induction l generalizing a with
  | nil => simp [h.2]
  | cons x l ih => exact List.mem_cons_of_mem _ (ih h.2.2)

theorem links_next_mem {s : Heap} {a : Addr} {l : List Addr} {b : Addr} (h : Links s a l b) : s.next a ∈ b :: l := by
  cases l with
  | nil => simp [h.1]
  | cons x l => simp [h.1]

theorem links_next_prev {s : Heap} {a : Addr} {l : List Addr} {b : Addr} (h : Links s a l b) : s.next (s.prev b) = b := by
  induction l generalizing a with
  | nil => rw [h.2]; exact h.1
  | cons x l ih => exact ih h.2.2

/-- A chain can be redirected at its end. -/
theorem links_retarget {s : Heap} {y : Addr} {ys : List Addr} {g : Addr} (h : Links s y ys g) (hnd : (y :: ys).Nodup)
    (s' : Heap) (b : Addr) (h1 : s'.next (s.prev g) = b) (h2 : s'.prev b = s.prev g)
    (h3 : ∀ x ∈ y :: ys, x ≠ s.prev g → s'.next x = s.next x) (h4 : ∀ x ∈ ys, s'.prev x = s.prev x) : Links s' y ys b := by
  induction ys generalizing y with
  | nil =>
    obtain ⟨e1, e2⟩ := h
    rw [e2] at h1 h2
    exact ⟨h1, h2⟩
  | cons x l ih =>
    obtain ⟨e1, e2, e3⟩ := h
    simp only [List.nodup_cons] at hnd
    have hm := links_prev_mem e3
    have hy : y ≠ s.prev g := fun e => hnd.1 (e ▸ hm)
    refine ⟨by rw [h3 y (by simp) hy]; exact e1, by rw [h4 x (by simp)]; exact e2,
      ih e3 (by simp [hnd.2]) (fun z hz => h3 z (List.mem_cons_of_mem _ hz)) (fun z hz => h4 z (List.mem_cons_of_mem _ hz))⟩

theorem ring_prev_mem {s : Heap} {a : Addr} {t : List Addr} (h : Ring s (a :: t)) : s.prev a ∈ a :: t := links_prev_mem h

theorem ring_prev_ne {s : Heap} {a : Addr} {t : List Addr} (h : Ring s (a :: t)) (hnd : (a :: t).Nodup) (ht : t ≠ []) :
    s.prev a ∈ t := by
  cases t with
  | nil => exact absurd rfl ht
  | cons x u => exact links_prev_mem h.2.2

/-! ### The basic operations on one ring, seen from the node concerned -/

theorem ring_add {s : Heap} {a : Addr} {t : List Addr} {n : Addr} (h : Ring s (a :: t)) (hnd : (a :: t).Nodup) (hn : n ∉ a :: t) :
    Ring (add s a n) (a :: n :: t) ∧ ∀ z, z ∉ a :: n :: t → Same s (add s a n) z := by
  simp only [List.mem_cons, not_or] at hn
  have hna : a ≠ n := fun e => hn.1 e.symm
  cases t with
  | nil =>
    obtain ⟨e1, e2⟩ := h
    refine ⟨⟨?_, ?_, ?_, ?_⟩, fun z hz => ?_⟩
    · simp [add, insert, Heap.setNext, Heap.setPrev, upd, hna]
    · simp [add, insert, Heap.setNext, Heap.setPrev, upd]
    · simp [add, insert, Heap.setNext, Heap.setPrev, upd, e1]
    · simp [add, insert, Heap.setNext, Heap.setPrev, upd, e1, hna]
    · simp at hz
      simp [Same, add, insert, Heap.setNext, Heap.setPrev, upd, e1, hz]
  | cons x u =>
    obtain ⟨e1, e2, e3⟩ := h
    simp only [List.nodup_cons, List.mem_cons, not_or] at hnd
    simp only [List.mem_cons, not_or] at hn
    have hnx : x ≠ n := fun e => hn.2.1 e.symm
    refine ⟨⟨?_, ?_, ?_, ?_, links_frame e3 (fun z hz => ?_) (fun z hz => ?_)⟩, fun z hz => ?_⟩
    · simp [add, insert, Heap.setNext, Heap.setPrev, upd, hna]
    · simp [add, insert, Heap.setNext, Heap.setPrev, upd]
    · simp [add, insert, Heap.setNext, Heap.setPrev, upd, e1]
    · simp [add, insert, Heap.setNext, Heap.setPrev, upd, e1, hnx]
    · have : z ≠ n ∧ z ≠ a := by grind
      simp [add, insert, Heap.setNext, Heap.setPrev, upd, e1, this]
    · have : z ≠ n ∧ z ≠ x := by grind
      simp [add, insert, Heap.setNext, Heap.setPrev, upd, e1, this]
    · simp at hz
      simp [Same, add, insert, Heap.setNext, Heap.setPrev, upd, e1, hz]

theorem ring_deluf {s : Heap} {x : Addr} {t : List Addr} (h : Ring s (x :: t)) (hnd : (x :: t).Nodup) (ht : t ≠ []) :
    Ring (deluf s x) t ∧ ∀ z, z ∉ t → Same s (deluf s x) z := by
  cases t with
  | nil => exact absurd rfl ht
  | cons f u =>
    obtain ⟨e1, e2, e3⟩ := h
    have hm := links_prev_mem e3
    simp only [List.nodup_cons, List.mem_cons, not_or] at hnd
    have hpx : s.prev x ≠ x := fun e => by rw [e] at hm; grind
    have hx : (s.setNext (s.prev x) (s.next x)).next x = f := by
      simp [Heap.setNext, upd, e1, Ne.symm hpx]
    have hd : deluf s x = (s.setNext (s.prev x) f).setPrev f (s.prev x) := by
      unfold deluf
      simp only [hx]
      rw [e1]
      rfl
    rw [hd]
    refine ⟨links_retarget e3 (by simp [hnd.2]) _ f ?_ ?_ (fun z hz hne => ?_) (fun z hz => ?_), fun z hz => ?_⟩
    · simp [Heap.setNext, Heap.setPrev, upd]
    · simp [Heap.setNext, Heap.setPrev, upd]
    · simp [Heap.setNext, Heap.setPrev, upd, hne]
    · have : z ≠ f := by grind
      simp [Heap.setNext, Heap.setPrev, upd, this]
    · have h1 : z ≠ f := by grind
      have h2 : z ≠ s.prev x := by grind
      simp [Same, Heap.setNext, Heap.setPrev, upd, h1, h2]

theorem ring_replace {s : Heap} {o : Addr} {t : List Addr} {n : Addr} (h : Ring s (o :: t)) (hnd : (o :: t).Nodup) (ht : t ≠ [])
    (hn : n ∉ o :: t) : Ring (replace s o n) (n :: t) ∧ ∀ z, z ∉ n :: t → Same s (replace s o n) z := by
  cases t with
  | nil => exact absurd rfl ht
  | cons f u =>
    obtain ⟨e1, e2, e3⟩ := h
    have hm := links_prev_mem e3
    simp only [List.nodup_cons, List.mem_cons, not_or] at hnd hn
    have hno : o ≠ n := fun e => hn.1 e.symm
    have hpn : s.prev o ≠ n := fun e => by rw [e] at hm; grind
    have hd : replace s o n = ((((s.setPrev n (s.prev o)).setNext n f).setNext (s.prev o) n).setPrev f n) := by
      have hnp := Ne.symm hpn
      simp [replace, Heap.setNext, Heap.setPrev, upd, e1, hnp]
    rw [hd]
    refine ⟨⟨?_, ?_, links_retarget e3 (by simp [hnd.2]) _ n ?_ ?_ (fun z hz hne => ?_) (fun z hz => ?_)⟩, fun z hz => ?_⟩
    · simp [Heap.setNext, Heap.setPrev, upd, Ne.symm hpn]
    · simp [Heap.setNext, Heap.setPrev, upd]
    · simp [Heap.setNext, Heap.setPrev, upd]
    · have : n ≠ f := by grind
      simp [Heap.setNext, Heap.setPrev, upd, this]
    · have : z ≠ n := by grind
      simp [Heap.setNext, Heap.setPrev, upd, hne, this]
    · have : z ≠ f ∧ z ≠ n := by grind
      simp [Heap.setNext, Heap.setPrev, upd, this]
    · have h1 : z ≠ f ∧ z ≠ n := by grind
      have h2 : z ≠ s.prev o := by grind
      simp [Same, Heap.setNext, Heap.setPrev, upd, h1, h2]

/-- Splicing the ring of `g` (without `g`) into the ring of `a`, right after `a`. -/
theorem ring_relocate {s : Heap} {a : Addr} {t : List Addr} {g y : Addr} {ys : List Addr} (h : Ring s (a :: t))
    (hg : Ring s (g :: y :: ys)) (hnd : (a :: t ++ g :: y :: ys).Nodup) :
    Ring (relocate s a (s.next a) g) (a :: y :: ys ++ t) ∧
      ∀ z, z ∉ a :: y :: ys ++ t → Same s (relocate s a (s.next a) g) z := by
  obtain ⟨g1, g2, g3⟩ := hg
  have hm := links_prev_mem g3
  have hA : a ∉ y :: ys := by grind
  have hAg : a ≠ s.prev g := fun e => hA (e ▸ hm)
  have hnd2 : (y :: ys).Nodup := by grind
  cases t with
  | nil =>
    obtain ⟨e1, e2⟩ := h
    have hd : relocate s a (s.next a) g = (((s.setPrev y a).setNext a y).setNext (s.prev g) a).setPrev a (s.prev g) := by
      simp [relocate, g1, e1]
    rw [hd, List.append_nil]
    refine ⟨⟨?_, ?_, links_retarget g3 hnd2 _ a ?_ ?_ (fun z hz hne => ?_) (fun z hz => ?_)⟩, fun z hz => ?_⟩
    · simp [Heap.setNext, Heap.setPrev, upd, hAg]
    · have : y ≠ a := by grind
      simp [Heap.setNext, Heap.setPrev, upd, this]
    · simp [Heap.setNext, Heap.setPrev, upd]
    · simp [Heap.setNext, Heap.setPrev, upd]
    · have : z ≠ a := by grind
      simp [Heap.setNext, Heap.setPrev, upd, hne, this]
    · have : z ≠ y ∧ z ≠ a := by grind
      simp [Heap.setNext, Heap.setPrev, upd, this]
    · have h1 : z ≠ y ∧ z ≠ a := by grind
      have h2 : z ≠ s.prev g := by grind
      simp [Same, Heap.setNext, Heap.setPrev, upd, h1, h2]
  | cons x u =>
    obtain ⟨e1, e2, e3⟩ := h
    have hd : relocate s a (s.next a) g = (((s.setPrev y a).setNext a y).setNext (s.prev g) x).setPrev x (s.prev g) := by
      simp [relocate, g1, e1]
    have hx : x ∉ y :: ys := by grind
    have hyx : y ≠ x := by grind
    rw [hd]
    refine ⟨⟨?_, ?_, (links_append _ _ _ _ _ _).2 ⟨links_retarget g3 hnd2 _ x ?_ ?_ (fun z hz hne => ?_) (fun z hz => ?_),
      links_frame e3 (fun z hz => ?_) (fun z hz => ?_)⟩⟩, fun z hz => ?_⟩
    · simp [Heap.setNext, Heap.setPrev, upd, hAg]
    · simp [Heap.setNext, Heap.setPrev, upd, hyx]
    · simp [Heap.setNext, Heap.setPrev, upd]
    · simp [Heap.setNext, Heap.setPrev, upd]
    · have : z ≠ a := by grind
      simp [Heap.setNext, Heap.setPrev, upd, hne, this]
    · have : z ≠ y ∧ z ≠ x := by grind
      simp [Heap.setNext, Heap.setPrev, upd, this]
    · have h1 : z ≠ a := by grind
      have h2 : z ≠ s.prev g := by grind
      simp [Heap.setNext, Heap.setPrev, upd, h1, h2]
    · have : z ≠ y ∧ z ≠ x := by grind
      simp [Heap.setNext, Heap.setPrev, upd, this]
    · have h1 : z ≠ y ∧ z ≠ a ∧ z ≠ x := by grind
      have h2 : z ≠ s.prev g := by grind
      simp [Same, Heap.setNext, Heap.setPrev, upd, h1, h2]

theorem links_last {s : Heap} {a : Addr} {l : List Addr} {b : Addr} (h : Links s a l b) : ∃ u, a :: l = u ++ [s.prev b] := by
  induction l generalizing a with
  | nil => exact ⟨[], by rw [h.2]; rfl⟩
  | cons x l ih =>
    obtain ⟨u, hu⟩ := ih h.2.2
    exact ⟨a :: u, by rw [hu]; rfl⟩

theorem ring_last {s : Heap} {a : Addr} {t : List Addr} (h : Ring s (a :: t)) (ht : t ≠ []) : ∃ u, t = u ++ [s.prev a] := by
  cases t with
  | nil => exact absurd rfl ht
  | cons x l => exact links_last h.2.2

theorem ring_addPrev {s : Heap} {a : Addr} {t : List Addr} {n : Addr} (h : Ring s (a :: t)) (hnd : (a :: t).Nodup) (hn : n ∉ a :: t) :
    Ring (addPrev s a n) (a :: t ++ [n]) ∧ ∀ z, z ∉ a :: n :: t → Same s (addPrev s a n) z := by
  have e : addPrev s a n = add s (s.prev a) n := by
    unfold addPrev add; rw [links_next_prev h]
  rw [e]
  by_cases ht : t = []
  · subst ht
    have : s.prev a = a := h.2
    rw [this]
    exact ring_add h hnd hn
  · obtain ⟨u, hu⟩ := ring_last h ht
    generalize s.prev a = p at hu
    subst hu
    have h1 : Ring s (p :: ([] ++ a :: u)) := (ring_rotate s (a :: u) p []).1 h
    obtain ⟨h2, h3⟩ := ring_add (n := n) h1 (by grind) (by grind)
    refine ⟨?_, fun z hz => h3 z (by grind)⟩
    have h4 := (ring_rotate _ [p, n] a u).1 h2
    simpa using h4

theorem ring_relocatePrev {s : Heap} {a : Addr} {t : List Addr} {g y : Addr} {ys : List Addr} (h : Ring s (a :: t))
    (hg : Ring s (g :: y :: ys)) (hnd : (a :: t ++ g :: y :: ys).Nodup) :
    Ring (relocate s (s.prev a) a g) (a :: t ++ y :: ys) ∧
      ∀ z, z ∉ a :: t ++ y :: ys → Same s (relocate s (s.prev a) a g) z := by
  have e : relocate s (s.prev a) a g = relocate s (s.prev a) (s.next (s.prev a)) g := by rw [links_next_prev h]
  rw [e]
  by_cases ht : t = []
  · subst ht
    have : s.prev a = a := h.2
    rw [this]
    simpa using ring_relocate h hg hnd
  · obtain ⟨u, hu⟩ := ring_last h ht
    generalize s.prev a = p at hu
    subst hu
    have h1 : Ring s (p :: ([] ++ a :: u)) := (ring_rotate s (a :: u) p []).1 h
    obtain ⟨h2, h3⟩ := ring_relocate h1 hg (by grind)
    refine ⟨?_, fun z hz => h3 z (by grind)⟩
    have h4 := (ring_rotate _ (p :: y :: ys) a u).1 (by simpa using h2)
    simpa using h4

theorem ring_del {s : Heap} {x : Addr} {t : List Addr} (h : Ring s (x :: t)) (hnd : (x :: t).Nodup) (ht : t ≠ []) :
    Ring (del s x) t ∧ ∀ z, z ∉ x :: t → Same s (del s x) z := by
  obtain ⟨h1, h2⟩ := ring_deluf h hnd ht
  have hsame : ∀ z, z ≠ x → Same (deluf s x) (del s x) z := fun z hz => by
    simp [Same, del, Heap.setNext, Heap.setPrev, upd, hz]
  refine ⟨ring_frame h1 (fun z hz => hsame z (by grind)), fun z hz => ?_⟩
  have a1 := hsame z (by grind)
  have a2 := h2 z (by grind)
  exact ⟨a1.1.trans a2.1, a1.2.trans a2.2⟩

theorem ring_headInit (s : Heap) (h : Addr) : Ring (headInit s h) [h] ∧ ∀ z, z ≠ h → Same s (headInit s h) z := by
  refine ⟨⟨by simp [headInit, Heap.setNext, Heap.setPrev, upd], by simp [headInit, Heap.setNext, Heap.setPrev, upd]⟩, fun z hz => ?_⟩
  simp [Same, headInit, Heap.setNext, Heap.setPrev, upd, hz]

theorem Same.trans {s s' s'' : Heap} {z : Addr} (h1 : Same s s' z) (h2 : Same s' s'' z) : Same s s'' z :=
  ⟨h2.1.trans h1.1, h2.2.trans h1.2⟩

/-- Exchange inside one ring, seen from the first node. -/
theorem ring_swap_same {s : Heap} {x y : Addr} {u v : List Addr} (h : Ring s (x :: u ++ y :: v)) (hnd : (x :: u ++ y :: v).Nodup)
    (hl : u ++ v ≠ []) :
    Ring (swap s x y) (y :: u ++ x :: v) ∧ ∀ z, z ∉ x :: u ++ y :: v → Same s (swap s x y) z := by
  have hy : Ring s (y :: (v ++ x :: u)) := (ring_rotate s (x :: u) y v).1 h
  obtain ⟨d1, d2⟩ := ring_del hy (by grind) (by simp)
  have d1' : Ring (del s y) (x :: (u ++ v)) := (ring_rotate _ v x u).1 d1
  obtain ⟨r1, r2⟩ := ring_replace (n := y) d1' (by grind) hl (by grind)
  unfold swap
  simp only
  have hprev : ∀ w p, v ++ x :: u = w ++ [p] → s.prev y = p := by
    intro w p e
    obtain ⟨w', hw⟩ := ring_last hy (by simp)
    rw [e] at hw
    exact ((List.append_inj' hw rfl).2 |> List.cons.inj |>.1).symm
  rcases List.eq_nil_or_concat u with rfl | ⟨u', e, rfl⟩
  · rw [hprev v x rfl, if_pos rfl]
    obtain ⟨a1, a2⟩ := ring_add (n := x) r1 (by grind) (by grind)
    exact ⟨a1, fun z hz => ((d2 z (by grind)).trans (r2 z (by grind))).trans (a2 z (by grind))⟩
  · rw [List.concat_eq_append] at *
    rw [hprev (v ++ x :: u') e (by simp), if_neg (by grind)]
    have r1' := (ring_rotate _ (y :: u') e v).1 (by simpa using r1)
    obtain ⟨a1, a2⟩ := ring_add (n := x) r1' (by grind) (by grind)
    refine ⟨?_, fun z hz => ((d2 z (by grind)).trans (r2 z (by grind))).trans (a2 z (by grind))⟩
    have := (ring_rotate _ (e :: x :: v) y u').1 (by simpa using a1)
    simpa using this

/-- Exchange between two rings, seen from the exchanged nodes. -/
theorem ring_swap_other {s : Heap} {x y : Addr} {u v : List Addr} (hx : Ring s (x :: u)) (hy : Ring s (y :: v))
    (hnd : (x :: u ++ y :: v).Nodup) (hu : u ≠ []) (hv : v ≠ []) :
    Ring (swap s x y) (y :: u) ∧ Ring (swap s x y) (x :: v) ∧ ∀ z, z ∉ x :: u ++ y :: v → Same s (swap s x y) z := by
  obtain ⟨d1, d2⟩ := ring_del hy (by grind) hv
  have hx1 : Ring (del s y) (x :: u) := ring_frame hx (fun z hz => d2 z (by grind))
  obtain ⟨r1, r2⟩ := ring_replace (n := y) hx1 (by grind) hu (by grind)
  obtain ⟨w, hw⟩ := ring_last hy hv
  unfold swap
  simp only
  generalize s.prev y = p at *
  subst hw
  have hv1 : Ring (replace (del s y) x y) (w ++ [p]) := ring_frame d1 (fun z hz => r2 z (by grind))
  have hv2 := (ring_rotate _ w p []).1 hv1
  rw [if_neg (by grind)]
  obtain ⟨a1, a2⟩ := ring_add (n := x) hv2 (by grind) (by grind)
  refine ⟨ring_frame r1 (fun z hz => a2 z (by grind)), ?_, fun z hz => ((d2 z (by grind)).trans (r2 z (by grind))).trans (a2 z (by grind))⟩
  have := (ring_rotate _ [p] x w).1 (by simpa using a1)
  simpa using this

/-! ### Lifting to the whole memory -/

/-- Rewriting one ring. -/
theorem world_one {s s' : Heap} {c c' : List Addr} {W : List (List Addr)} (h : World s (c :: W)) (hr : Ring s' c')
    (hs : ∀ z, z ∈ W.flatten → Same s s' z) (hnd : (c' ++ W.flatten).Nodup) : World s' (c' :: W) := by
  refine ⟨fun d hd => ?_, by simpa using hnd⟩
  rcases List.mem_cons.1 hd with rfl | hd
  · exact hr
  · exact ring_frame (h.ring d (by simp [hd])) (fun z hz => hs z (List.mem_flatten.2 ⟨d, hd, hz⟩))

theorem world_tail {s : Heap} {c : List Addr} {W : List (List Addr)} (h : World s (c :: W)) : World s W :=
  ⟨fun d hd => h.ring d (by simp [hd]), by have := h.nodup; simp only [List.flatten_cons] at this; exact (List.nodup_append.1 this).2.1⟩

/-- Adding a ring. -/
theorem world_cons {s s' : Heap} {c : List Addr} {W : List (List Addr)} (h : World s W) (hr : Ring s' c)
    (hs : ∀ z, z ∈ W.flatten → Same s s' z) (hnd : (c ++ W.flatten).Nodup) : World s' (c :: W) := by
  refine ⟨fun d hd => ?_, by simpa using hnd⟩
  rcases List.mem_cons.1 hd with rfl | hd
  · exact hr
  · exact ring_frame (h.ring d hd) (fun z hz => hs z (List.mem_flatten.2 ⟨d, hd, hz⟩))

theorem world_perm {s : Heap} {W W' : List (List Addr)} (hp : W.Perm W') (h : World s W) : World s W' :=
  ⟨fun c hc => h.ring c (hp.mem_iff.2 hc), (hp.flatten.nodup_iff).1 h.nodup⟩

/-- The ring `before` describes, seen from `a`. -/
theorem ring_before {s : Heap} {l : List Addr} {a : Addr} {r ys : List Addr} (h : Ring s (a :: (r ++ l) ++ ys)) :
    Ring s (before l a r ys) := by
  unfold before
  split
  · next e => subst e; simpa using h
  · exact (ring_rotate s (l ++ ys) a r).2 (by simpa using h)

theorem before_perm (l : List Addr) (a : Addr) (r ys : List Addr) : (before l a r ys).Perm (l ++ a :: r ++ ys) := by
  unfold before
  split
  · next e => subst e; simp
  · rw [List.append_assoc l ys, List.append_assoc l (a :: r) ys]; exact (List.perm_append_comm).append_left l

theorem exchange_nodup (x y : Addr) {c : List Addr} (hnd : c.Nodup) : (c.map (exchange x y)).Nodup := by
  have hinj : ∀ a b, exchange x y a = exchange x y b → a = b := by
    intro a b; unfold exchange; grind
  exact List.Pairwise.map _ (fun a b hab e => hab (hinj a b e)) hnd

theorem exchange_mem {x y : Addr} {c : List Addr} (hx : x ∈ c) (hy : y ∈ c) {z : Addr} (hz : z ∈ c.map (exchange x y)) : z ∈ c := by
  obtain ⟨w, hw, rfl⟩ := List.mem_map.1 hz
  unfold exchange; grind

theorem map_exchange_id {x y : Addr} {c : List Addr} (hx : x ∉ c) (hy : y ∉ c) : c.map (exchange x y) = c := by
  conv => rhs; rw [← List.map_id c]
  apply List.map_congr_left
  intro z hz
  unfold exchange; grind

end Bfdev.Dlist

import Verif.Hlist.Spec
import Verif.Dlist.Lemmas
import Verif.Common.Nodup
/-!
C18: hash chains.
-/
set_option linter.unusedSimpArgs false
namespace Bfdev.Hlist
open Bfdev.Dlist (Addr Heap upd Same Same.trans)

theorem chain_frame {s s' : Heap} {a : Addr} {l : List Addr} (h : Chain s a l) (hn : ∀ z ∈ a :: l, s'.next z = s.next z)
    (hp : ∀ z ∈ l, s'.prev z = s.prev z) : Chain s' a l := by
  induction l generalizing a with
  | nil => exact (hn a (by simp)).trans h
  | cons x l ih =>
    refine ⟨(hn a (by simp)).trans h.1, h.2.1, (hp x (by simp)).trans h.2.2.1, ih h.2.2.2 (fun z hz => hn z (by simp only [List.mem_cons] at hz ⊢; exact Or.inr hz)) (fun z hz => hp z (by simp [hz]))⟩

theorem isChain_frame {s s' : Heap} {c : List Addr} (h : IsChain s c) (hs : ∀ z ∈ c, Same s s' z) : IsChain s' c := by
  cases c with
  | nil => exact h
  | cons a l => exact ⟨h.1, chain_frame h.2 (fun z hz => (hs z hz).1) (fun z hz => (hs z (by simp [hz])).2)⟩

theorem chain_next_zero {s : Heap} {a : Addr} {l : List Addr} (h : Chain s a l) : s.next a = 0 ↔ l = [] := by
  cases l with
  | nil => exact ⟨fun _ => rfl, fun _ => h⟩
  | cons x l => simp [h.1, h.2.1]

theorem chain_next_mem {s : Heap} {a : Addr} {l : List Addr} (h : Chain s a l) (h0 : s.next a ≠ 0) : s.next a ∈ l := by
  cases l with
  | nil => exact absurd h h0
  | cons x l => simp [h.1]

/-- The predecessor of a node is in the chain. -/
theorem chain_prev {s : Heap} {a : Addr} {l : List Addr} {x : Addr} {r : List Addr} (h : Chain s a (l ++ x :: r)) : s.prev x ∈ a :: l := by
  induction l generalizing a with
  | nil => simp [h.2.2.1]
  | cons y l ih => exact List.mem_cons_of_mem _ (ih h.2.2.2)

theorem chain_tail {s : Heap} {a : Addr} {l : List Addr} {x : Addr} {r : List Addr} (h : Chain s a (l ++ x :: r)) : x ≠ 0 ∧ Chain s x r := by
  induction l generalizing a with
  | nil => exact ⟨h.2.1, h.2.2.2⟩
  | cons y l ih => exact ih h.2.2.2

/-- Rewriting the link into position: from `x` on, the chain is replaced by one starting at `n`. -/
theorem chain_relink {s s' : Heap} {x : Addr} {r r' : List Addr} : ∀ {l : List Addr} {a : Addr}, Chain s a (l ++ x :: r) → (a :: l ++ x :: r).Nodup →
    (∀ z ∈ a :: l, z ≠ s.prev x → s'.next z = s.next z) → (∀ z ∈ l, s'.prev z = s.prev z) → Chain s' (s.prev x) r' → Chain s' a (l ++ r') := by
  intro l
  induction l with
  | nil => intro a h hnd h1 h2 h3; rw [h.2.2.1] at h3; exact h3
  | cons y l ih =>
    intro a h hnd h1 h2 h3
    have hp := chain_prev h.2.2.2
    have ha : a ≠ s.prev x := by
      refine Ne.symm (nd_ne ?_)
      ndm hnd, hp
    exact ⟨(h1 a (by simp) ha).trans h.1, h.2.1, (h2 y (by simp)).trans h.2.2.1,
      ih h.2.2.2 (by ndn hnd) (fun z hz => h1 z (by simp only [List.mem_cons] at hz ⊢; exact Or.inr hz)) (fun z hz => h2 z (by simp [hz])) h3⟩

theorem deluf_ok {s : Heap} {h : Addr} {l : List Addr} {x : Addr} {r : List Addr} (hc : IsChain s (h :: l ++ x :: r)) (hnd : (h :: l ++ x :: r).Nodup)
    (h0 : ∀ z ∈ h :: l, z ≠ 0) :
    ∃ s', deluf s x = some s' ∧ IsChain s' (h :: l ++ r) ∧ ∀ z, z ∉ h :: l ++ r → Same s s' z := by
  obtain ⟨hh, hc⟩ := hc
  have hp := chain_prev hc
  obtain ⟨hx0, hr⟩ := chain_tail hc
  have hp0 := h0 _ hp
  simp only [deluf, put, if_neg hp0]
  refine ⟨_, rfl, ⟨hh, ?_⟩, fun z hz => ?_⟩
  · have e : ∀ z, z ≠ s.prev x → ((if s.next x ≠ 0 then s.setPrev (s.next x) (s.prev x) else s).setNext (s.prev x) (s.next x)).next z = s.next z := by
      intro z hz; split <;> simp [Heap.setNext, Heap.setPrev, upd, hz]
    refine chain_relink hc hnd (fun z _ hne => e z hne) (fun z hz => ?_) ?_
    · have : s.next x ≠ 0 → z ≠ s.next x := fun h0 e => by
        have := chain_next_mem hr h0
        rw [← e] at this
        exact absurd this (by ndm hnd, hz)
      split
      · next h0 => simp [Heap.setNext, Heap.setPrev, upd, this h0]
      · rfl
    · cases r with
      | nil =>
        have hr' : s.next x = 0 := hr
        simp [Chain, Heap.setNext, hr']
      | cons y r =>
        obtain ⟨e1, e2, e3, e4⟩ := hr
        rw [e1, if_pos e2]
        refine ⟨by simp [Heap.setNext], e2, by simp [Heap.setNext, Heap.setPrev], ?_⟩
        refine chain_frame e4 (fun z hz => ?_) (fun z hz => ?_)
        · have : z ≠ s.prev x := by
            intro e
            rw [← e] at hp
            exact absurd hz (by ndm hnd, hp)
          simp [Heap.setNext, Heap.setPrev, upd, this]
        · have : z ≠ y := by refine nd_ne ?_; ndm hnd, hz
          simp [Heap.setNext, Heap.setPrev, upd, this]
  · have h1 : z ≠ s.prev x := fun e => hz (by rw [e, List.mem_append]; exact Or.inl hp)
    have h2 : s.next x ≠ 0 → z ≠ s.next x := fun h0 e => hz (by rw [e, List.mem_append]; exact Or.inr (chain_next_mem hr h0))
    split
    · next h0 => simp [Same, Heap.setNext, Heap.setPrev, upd, h1, h2 h0]
    · simp [Same, Heap.setNext, upd, h1]

theorem chain_ne_zero {s : Heap} {c : List Addr} (h : IsChain s c) : ∀ z ∈ c, z ≠ 0 := by
  cases c with
  | nil => simp
  | cons a l =>
    obtain ⟨h0, h⟩ := h
    intro z hz
    rcases List.mem_cons.1 hz with rfl | hz
    · exact h0
    · obtain ⟨l1, l2, rfl⟩ := List.append_of_mem hz
      exact (chain_tail h).1

theorem world_one {s s' : Heap} {c c' : List Addr} {W : List (List Addr)} (h : World s (c :: W)) (hr : IsChain s' c')
    (hs : ∀ z, z ∈ W.flatten → Same s s' z) (hnd : (c' ++ W.flatten).Nodup) : World s' (c' :: W) := by
  refine ⟨fun d hd => ?_, by simpa using hnd⟩
  rcases List.mem_cons.1 hd with rfl | hd
  · exact hr
  · exact isChain_frame (h.chain d (by simp [hd])) (fun z hz => hs z (List.mem_flatten.2 ⟨d, hd, hz⟩))

theorem world_cons {s s' : Heap} {c : List Addr} {W : List (List Addr)} (h : World s W) (hr : IsChain s' c)
    (hs : ∀ z, z ∈ W.flatten → Same s s' z) (hnd : (c ++ W.flatten).Nodup) : World s' (c :: W) := by
  refine ⟨fun d hd => ?_, by simpa using hnd⟩
  rcases List.mem_cons.1 hd with rfl | hd
  · exact hr
  · exact isChain_frame (h.chain d hd) (fun z hz => hs z (List.mem_flatten.2 ⟨d, hd, hz⟩))

theorem world_perm {s : Heap} {W W' : List (List Addr)} (hp : W.Perm W') (h : World s W) : World s W' :=
  ⟨fun c hc => h.chain c (hp.mem_iff.2 hc), (hp.flatten.nodup_iff).1 h.nodup⟩

/-- C18 for every operation except add-before and add-after in the middle: the operation does not fail, acts on the sequences as
described, keeps every back reference right and leaves other chains alone.
Missing from the full property: `prev_add` everywhere and `next_add` on nodes that have a successor, where the code is wrong. -/
theorem step_sound_partial {s : Heap} {W W' : List (List Addr)} {op : Op} (hw : World s W) (hs : Step W op W') :
    ∃ s', op.run s = some s' ∧ World s' W' := by
  induction hs with
  | perm hp _ ih => exact ih (world_perm hp hw)
  | @headInit W h h0 hn =>
    have hnd := List.nodup_cons.2 ⟨hn, hw.nodup⟩
    refine ⟨_, rfl, world_cons hw ⟨h0, by simp [Chain, Hlist.headInit, Heap.setNext]⟩ (fun z hz => ?_) (by nd)⟩
    have : z ≠ h := by nd
    simp [Same, Hlist.headInit, Heap.setNext, upd, this]
  | @headAdd W h l n h0 hn =>
    have hnd : (n :: ((h :: l) ++ W.flatten)).Nodup := List.nodup_cons.2 ⟨by simpa using hn, by simpa using hw.nodup⟩
    obtain ⟨hh, hc⟩ := hw.chain (h :: l) (by simp)
    have hhn : h ≠ n := by nd
    have hnext : ((s.setNext n (s.next h)).setPrev n h).next h = s.next h := by simp [Heap.setNext, Heap.setPrev, upd, hhn]
    have hsame : ∀ z, z ∉ h :: n :: l → Same s (Hlist.headAdd s h n) z := by
      intro z hz
      simp only [List.mem_cons, not_or] at hz
      have h2 : s.next h ≠ 0 → z ≠ s.next h := fun h0 e => hz.2.2 (by rw [e]; exact chain_next_mem hc h0)
      simp only [Hlist.headAdd, hnext]
      split
      · next h0 => simp [Same, Heap.setNext, Heap.setPrev, upd, hz.1, hz.2.1, h2 h0]
      · simp [Same, Heap.setNext, Heap.setPrev, upd, hz.1, hz.2.1]
    refine ⟨_, rfl, world_one hw ⟨hh, ?_⟩ (fun z hz => hsame z (by nd)) (by nd)⟩
    simp only [Hlist.headAdd, hnext]
    cases l with
    | nil =>
      have hc' : s.next h = 0 := hc
      simp [Chain, hc', Heap.setNext, Heap.setPrev, upd, hhn.symm, h0]
    | cons x l =>
      obtain ⟨e1, e2, e3, e4⟩ := hc
      have hnx : n ≠ x := by nd
      have hhx : x ≠ h := by nd
      rw [e1, if_pos e2]
      refine ⟨by simp [Heap.setNext], h0, by simp [Heap.setNext, Heap.setPrev, upd, hnx], by simp [Heap.setNext, Heap.setPrev, upd, hhn.symm], e2, by simp [Heap.setNext, Heap.setPrev], ?_⟩
      refine chain_frame e4 (fun z hz => ?_) (fun z hz => ?_)
      · have a1 : z ≠ h := by nd
        have a2 : z ≠ n := by nd
        simp [Heap.setNext, Heap.setPrev, upd, a1, a2]
      · have a1 : z ≠ x := by nd
        have a2 : z ≠ n := by nd
        simp [Heap.setNext, Heap.setPrev, upd, a1, a2]
  | @nextAdd W l a n h0 hn =>
    have hnd : (n :: ((l ++ [a]) ++ W.flatten)).Nodup := List.nodup_cons.2 ⟨by simpa using hn, by simpa using hw.nodup⟩
    have hch := hw.chain (l ++ [a]) (by simp)
    have han : a ≠ n := by nd
    have hlast : s.next a = 0 := by
      cases l with
      | nil => exact hch.2
      | cons h l => exact (chain_tail hch.2).2
    have e : ∀ z, z ≠ a → z ≠ n → Same s (Hlist.nextAdd s a n) z := by
      intro z h1 h2
      simp [Hlist.nextAdd, Same, Heap.setNext, Heap.setPrev, upd, hlast, h1, h2]
    have e1 : (Hlist.nextAdd s a n).next a = n ∧ (Hlist.nextAdd s a n).prev n = a ∧ (Hlist.nextAdd s a n).next n = 0 ∧ (Hlist.nextAdd s a n).prev a = s.prev a := by
      simp [Hlist.nextAdd, Heap.setNext, Heap.setPrev, upd, hlast, han, han.symm]
    refine ⟨_, rfl, world_one hw ?_ (fun z hz => e z (by nd) (by nd)) (by nd)⟩
    cases l with
    | nil => exact ⟨hch.1, e1.1, h0, e1.2.1, e1.2.2.1⟩
    | cons h l =>
      refine ⟨hch.1, ?_⟩
      obtain ⟨ha0, _⟩ := chain_tail hch.2
      have hp := chain_prev hch.2
      have hpa : s.prev a ≠ a := by refine nd_ne ?_; ndm hnd, hp
      have hpn : s.prev a ≠ n := by refine nd_ne ?_; ndm hnd, hp
      have hin : ∀ z, z ∈ h :: l → z ≠ a ∧ z ≠ n := fun z hz => ⟨by nd, by nd⟩
      refine chain_relink hch.2 (by nd) (fun z hz _ => (e z (hin z hz).1 (hin z hz).2).1) (fun z hz => (e z (hin z (by simp [hz])).1 (hin z (by simp [hz])).2).2) ?_
      refine ⟨?_, ha0, e1.2.2.2, e1.1, h0, e1.2.1, e1.2.2.1⟩
      rw [(e _ hpa hpn).1]
      -- the predecessor refers to `a`
      have : ∀ {l : List Addr} {b : Addr}, Chain s b (l ++ [a]) → s.next (s.prev a) = a := by
        intro l
        induction l with
        | nil => intro b hb; rw [hb.2.2.1]; exact hb.1
        | cons y l ih => intro b hb; exact ih hb.2.2.2
      exact this hch.2
  | @del W h l x r =>
    have hnd : ((h :: l ++ x :: r) ++ W.flatten).Nodup := by simpa using hw.nodup
    have hch := hw.chain _ (List.mem_cons_self ..)
    obtain ⟨s', e1, e2, e3⟩ := deluf_ok hch (by nd) (fun z hz => chain_ne_zero hch z (by simp only [List.mem_append]; exact Or.inl hz))
    have e4 : ∀ z, z ≠ x → Same s' ((s'.setNext x 0x120).setPrev x 0x130) z := fun z hz => by simp [Same, Heap.setNext, Heap.setPrev, upd, hz]
    refine ⟨_, by simp only [Op.run, Hlist.del, e1, bind, Option.bind]; rfl, world_one hw (isChain_frame e2 (fun z hz => e4 z (by nd))) (fun z hz => (e3 z (by nd)).trans (e4 z (by nd))) (by nd)⟩
  | @delInit W h l x r =>
    have hnd : ((h :: l ++ x :: r) ++ W.flatten).Nodup := by simpa using hw.nodup
    have hch := hw.chain _ (List.mem_cons_self ..)
    obtain ⟨s', e1, e2, e3⟩ := deluf_ok hch (by nd) (fun z hz => chain_ne_zero hch z (by simp only [List.mem_append]; exact Or.inl hz))
    have e4 : ∀ z, z ≠ x → Same s' (nodeInit s' x) z := fun z hz => by simp [Same, nodeInit, Heap.setNext, Heap.setPrev, upd, hz]
    refine ⟨_, by simp only [Op.run, Hlist.delInit, e1, bind, Option.bind]; rfl, world_one hw (isChain_frame e2 (fun z hz => e4 z (by nd))) (fun z hz => (e3 z (by nd)).trans (e4 z (by nd))) (by nd)⟩
  | @headReplace W o l n h0 hn =>
    have hnd : (n :: ((o :: l) ++ W.flatten)).Nodup := List.nodup_cons.2 ⟨by simpa using hn, by simpa using hw.nodup⟩
    obtain ⟨hh, hc⟩ := hw.chain (o :: l) (by simp)
    have hno : n ≠ o := by nd
    have hnx : ((s.setNext n (s.next o)).setNext o 0).next n = s.next o := by simp [Heap.setNext, upd, hno]
    have hsame : ∀ z, z ∉ n :: o :: l → Same s (Hlist.headReplace s o n) z := by
      intro z hz
      simp only [List.mem_cons, not_or] at hz
      have h2 : s.next o ≠ 0 → z ≠ s.next o := fun h0 e => hz.2.2 (by rw [e]; exact chain_next_mem hc h0)
      simp only [Hlist.headReplace, hnx]
      split
      · next h0 => simp [Same, Heap.setNext, Heap.setPrev, upd, hz.1, hz.2.1, h2 h0]
      · simp [Same, Heap.setNext, Heap.setPrev, upd, hz.1, hz.2.1]
    have ho : (Hlist.headReplace s o n).next o = 0 := by
      simp only [Hlist.headReplace, hnx]
      split <;> simp [Heap.setNext, Heap.setPrev]
    have hW : World (Hlist.headReplace s o n) ([o] :: W) := world_one hw ⟨hh, ho⟩ (fun z hz => hsame z (by nd)) (by nd)
    refine ⟨_, rfl, world_cons hW ⟨h0, ?_⟩ (fun _ _ => ⟨rfl, rfl⟩) (by nd)⟩
    simp only [Hlist.headReplace, hnx]
    cases l with
    | nil =>
      have hc' : s.next o = 0 := hc
      simp [Chain, hc', Heap.setNext, upd, hno]
    | cons x l =>
      obtain ⟨e1, e2, e3, e4⟩ := hc
      rw [e1, if_pos e2]
      refine ⟨by simp [Heap.setNext, Heap.setPrev, upd, hno], e2, by simp [Heap.setPrev], ?_⟩
      refine chain_frame e4 (fun z hz => ?_) (fun z hz => ?_)
      · have a1 : z ≠ o := by nd
        have a2 : z ≠ n := by nd
        simp [Heap.setNext, Heap.setPrev, upd, a1, a2]
      · have a1 : z ≠ x := by nd
        simp [Heap.setNext, Heap.setPrev, upd, a1]
  | @replace W h l o r n h0 hn =>
    have hnd : (n :: ((h :: l ++ o :: r) ++ W.flatten)).Nodup := List.nodup_cons.2 ⟨by simpa using hn, by simpa using hw.nodup⟩
    have hch := hw.chain _ (List.mem_cons_self ..)
    obtain ⟨hh, hc⟩ := hch
    have hp := chain_prev hc
    obtain ⟨ho0, hr⟩ := chain_tail hc
    have hp0 : s.prev o ≠ 0 := chain_ne_zero (c := h :: l ++ o :: r) ⟨hh, hc⟩ _ (by simp only [List.mem_append]; exact Or.inl hp)
    have hpn : s.prev o ≠ n := by refine nd_ne ?_; ndm hnd, hp
    have hpo : s.prev o ≠ o := by refine nd_ne ?_; ndm hnd, hp
    have hon : o ≠ n := by nd
    have hrun : Hlist.replace s o n = some ((if s.next o ≠ 0 then (((s.setNext n (s.next o)).setPrev n (s.prev o)).setPrev (s.next o) n) else ((s.setNext n (s.next o)).setPrev n (s.prev o))).setNext (s.prev o) n) := by
      have e1 : ((s.setNext n (s.next o)).setPrev n (s.prev o)).next n = s.next o := by simp [Heap.setNext, Heap.setPrev]
      have e0 : (s.setNext n (s.next o)).prev o = s.prev o := rfl
      simp only [Hlist.replace, e1, e0, put]
      have e2 : (if s.next o ≠ 0 then (((s.setNext n (s.next o)).setPrev n (s.prev o)).setPrev (s.next o) n) else ((s.setNext n (s.next o)).setPrev n (s.prev o))).prev n = s.prev o := by
        split
        · next h0 =>
          have hm := chain_next_mem hr h0
          have : n ≠ s.next o := by refine Ne.symm (nd_ne ?_); ndm hnd, hm
          simp [Heap.setPrev, upd, this]
        · simp [Heap.setPrev]
      rw [e2, if_neg hp0]
    refine ⟨_, hrun, ?_⟩
    generalize hs' : (if s.next o ≠ 0 then (((s.setNext n (s.next o)).setPrev n (s.prev o)).setPrev (s.next o) n) else ((s.setNext n (s.next o)).setPrev n (s.prev o))).setNext (s.prev o) n = s'
    have fnext : ∀ z, z ≠ s.prev o → z ≠ n → s'.next z = s.next z := by
      intro z h1 h2; rw [← hs']; split <;> simp [Heap.setNext, Heap.setPrev, upd, h1, h2]
    have fprev : ∀ z, (s.next o ≠ 0 → z ≠ s.next o) → z ≠ n → s'.prev z = s.prev z := by
      intro z h1 h2; rw [← hs']
      split
      · next h0 => simp [Heap.setNext, Heap.setPrev, upd, h1 h0, h2]
      · simp [Heap.setNext, Heap.setPrev, upd, h2]
    have hnr : ∀ z, z ∉ r → s.next o ≠ 0 → z ≠ s.next o := fun z hz h0 e => hz (by rw [e]; exact chain_next_mem hr h0)
    have hin : ∀ z, z ∈ h :: l → z ≠ n ∧ z ∉ r := fun z hz => ⟨by nd, by nd⟩
    have gp : s'.next (s.prev o) = n := by rw [← hs']; simp [Heap.setNext]
    have gn : s'.prev n = s.prev o := by
      rw [← hs']
      split
      · next h0 =>
        have hm := chain_next_mem hr h0
        have : n ≠ s.next o := by refine Ne.symm (nd_ne ?_); ndm hnd, hm
        simp [Heap.setNext, Heap.setPrev, upd, this]
      · simp [Heap.setNext, Heap.setPrev]
    have gnn : s'.next n = s.next o := by rw [← hs']; split <;> simp [Heap.setNext, Heap.setPrev, upd, hpn.symm]
    refine world_one hw ⟨hh, ?_⟩ (fun z hz => ⟨fnext z (by rintro rfl; exact absurd hp (by nd)) (by nd), fprev z (hnr z (by nd)) (by nd)⟩) (by nd)
    refine chain_relink hc (by nd) (fun z hz hne => fnext z hne (hin z hz).1) (fun z hz => fprev z (hnr z (hin z (by simp [hz])).2) (hin z (by simp [hz])).1) ?_
    refine ⟨gp, h0, gn, ?_⟩
    cases r with
    | nil => exact gnn.trans hr
    | cons x r =>
      obtain ⟨e1, e2, e3, e4⟩ := hr
      refine ⟨gnn.trans e1, e2, ?_, ?_⟩
      · rw [← hs', e1, if_pos e2]; simp [Heap.setNext, Heap.setPrev]
      · refine chain_frame e4 (fun z hz => fnext z ?_ (by nd)) (fun z hz => fprev z (fun _ => ?_) (by nd))
        · intro e
          rw [← e] at hp
          exact absurd hp (by nd)
        · rw [e1]; nd

/-- C18, histories. -/
theorem hlist_histories_partial {s : Heap} {W W' : List (List Addr)} {ops : List Op} (hw : World s W) (hs : Steps W ops W') :
    ∃ s', runAll s ops = some s' ∧ World s' W' := by
  induction hs generalizing s with
  | nil => exact ⟨s, rfl, hw⟩
  | cons h _ ih =>
    obtain ⟨s1, e1, w1⟩ := step_sound_partial hw h
    obtain ⟨s2, e2, w2⟩ := ih w1
    exact ⟨s2, by simp only [runAll, e1, bind, Option.bind]; exact e2, w2⟩

/-- C18: walking a chain visits its nodes in order and ends. -/
theorem traversal {s : Heap} {h : Addr} {xs : List Addr} (hc : IsChain s (h :: xs)) (fuel : Nat) (hf : xs.length < fuel) :
    forEach s h fuel = some xs := by
  unfold forEach
  replace hc := hc.2
  induction xs generalizing h fuel with
  | nil =>
    obtain ⟨f, rfl⟩ : ∃ f, fuel = f + 1 := ⟨fuel - 1, by simp at hf; omega⟩
    have : s.next h = 0 := hc
    simp [walkFrom, this]
  | cons x xs ih =>
    obtain ⟨f, rfl⟩ : ∃ f, fuel = f + 1 := ⟨fuel - 1, by simp at hf; omega⟩
    rw [hc.1, walkFrom, if_neg hc.2.1, ih f (by simp at hf; omega) hc.2.2.2]
    rfl

/-- C18: the tests on chains answer the question they are named after. -/
theorem checks {s : Heap} {h : Addr} {xs : List Addr} (hc : IsChain s (h :: xs)) (hnd : (h :: xs).Nodup) :
    (checkEmpty s h = true ↔ xs = []) ∧ ∀ x ∈ xs, (checkFirst s h x = true ↔ xs.head? = some x) ∧ (checkEnd s x = true ↔ xs.getLast? = some x) ∧
      (checkAnother s h x = true ↔ xs = [x]) ∧ checkUnhashed s x = false := by
  obtain ⟨hh, hc⟩ := hc
  have hend : ∀ x ∈ xs, (s.next x = 0 ↔ xs.getLast? = some x) := by
    intro x hx
    obtain ⟨l, r, rfl⟩ := List.append_of_mem hx
    rw [chain_next_zero (chain_tail hc).2]
    cases r with
    | nil => simp
    | cons y r =>
      simp only [reduceCtorEq, false_iff]
      intro e
      have h1 : (l ++ x :: y :: r).getLast? = (y :: r).getLast? := by simp [List.getLast?_append, List.getLast?_cons]
      rw [h1] at e
      have := List.mem_of_getLast? e
      grind
  have hfirst : ∀ x ∈ xs, (s.next h = x ↔ xs.head? = some x) := by
    intro x hx
    cases xs with
    | nil => simp at hx
    | cons y t => simp [hc.1]
  refine ⟨by simpa [checkEmpty] using chain_next_zero hc, fun x hx => ⟨by simpa [checkFirst] using hfirst x hx, by simpa [checkEnd] using hend x hx, ?_, ?_⟩⟩
  · simp only [checkAnother, Bool.and_eq_true, beq_iff_eq, hfirst x hx, hend x hx]
    cases xs with
    | nil => simp at hx
    | cons y t =>
      cases t with
      | nil => simp
      | cons z t =>
        simp only [List.head?_cons, Option.some.injEq, List.cons.injEq, reduceCtorEq, and_false, iff_false, not_and]
        rintro rfl e
        have h1 : (y :: z :: t).getLast? = (z :: t).getLast? := by simp [List.getLast?_cons]
        rw [h1] at e
        have := List.mem_of_getLast? e
        grind
  · obtain ⟨l, r, rfl⟩ := List.append_of_mem hx
    have hp := chain_prev hc
    have : s.prev x ≠ 0 := chain_ne_zero (c := h :: l ++ x :: r) ⟨hh, hc⟩ _ (by simp only [List.mem_append]; exact Or.inl hp)
    simp [checkUnhashed, this]

/-- C18, witness: adding a node between two others leaves the successor's back reference on the old predecessor, so deleting the
successor afterwards also drops the new node: the chain 1, 3, 2 minus 2 is left as just 1. -/
theorem next_add_violated : ∀ s : Heap, World s [[9, 1, 2]] →
    (forEach (nextAdd s 1 3) 9 5 = some [1, 3, 2]) ∧ (nextAdd s 1 3).prev 2 = 1 ∧
      (del (nextAdd s 1 3) 2).bind (fun s => forEach s 9 5) = some [1] := by
  intro s hw
  obtain ⟨_, h1, _, h2, h3, _, h4, h5⟩ := hw.chain _ (List.mem_cons_self ..)
  have h5' : s.next 2 = 0 := h5
  refine ⟨?_, ?_, ?_⟩ <;>
    simp [nextAdd, del, deluf, put, forEach, walkFrom, Heap.setNext, Heap.setPrev, upd, h1, h2, h3, h4, h5', Option.bind]

/-- C18, exactly what adding after a node in the middle does: the forward links become right, the new node's back reference is right, and of all the rest
only the successor's back reference is stored, with the old value. -/
theorem next_add_effect {s : Heap} {a n b : Addr} (hb : s.next a = b) (h0 : b ≠ 0) (hab : a ≠ b) (han : a ≠ n) (hbn : b ≠ n) :
    (nextAdd s a n).next a = n ∧ (nextAdd s a n).next n = b ∧ (nextAdd s a n).prev n = a ∧ (nextAdd s a n).prev b = a ∧
    (∀ z, z ≠ a → z ≠ n → (nextAdd s a n).next z = s.next z) ∧ ∀ z, z ≠ b → z ≠ n → (nextAdd s a n).prev z = s.prev z := by
  subst hb
  refine ⟨?_, ?_, ?_, ?_, fun z h1 h2 => ?_, fun z h1 h2 => ?_⟩ <;> simp [nextAdd, Heap.setNext, Heap.setPrev, upd, *, Ne.symm, han.symm, hab.symm, hbn.symm]

/-- C18, in every chain: adding a node before another one turns the chain into a cycle; a walk from the head never ends. -/
theorem prev_add_violated {s : Heap} {h : Addr} {l : List Addr} {x : Addr} {r : List Addr} {n : Addr} (hc : IsChain s (h :: l ++ x :: r))
    (hnd : (h :: l ++ x :: r).Nodup) (hn : n ∉ h :: l ++ x :: r) (h0 : n ≠ 0) :
    ∃ s', prevAdd s x n = some s' ∧ ∀ fuel, forEach s' h fuel = none := by
  obtain ⟨hh, hc⟩ := hc
  obtain ⟨hx0, _⟩ := chain_tail hc
  have hxn : x ≠ n := fun e => hn (by simp [e])
  have e0 : (((s.setPrev n (s.prev x)).setNext n x).setPrev x x).prev x = x := by simp [Heap.setPrev]
  refine ⟨(((s.setPrev n (s.prev x)).setNext n x).setPrev x x).setNext x n, by simp only [prevAdd, e0, put, if_neg hx0], ?_⟩
  generalize hs' : (((s.setPrev n (s.prev x)).setNext n x).setPrev x x).setNext x n = s'
  have n1 : s'.next x = n := by rw [← hs']; simp [Heap.setNext]
  have n2 : s'.next n = x := by rw [← hs']; simp [Heap.setNext, Heap.setPrev, upd, hxn.symm]
  have n3 : ∀ z, z ≠ x → z ≠ n → s'.next z = s.next z := by intro z a b; rw [← hs']; simp [Heap.setNext, Heap.setPrev, upd, a, b]
  have cyc : ∀ fuel, walkFrom s' fuel x = none ∧ walkFrom s' fuel n = none := by
    intro fuel
    induction fuel with
    | zero => exact ⟨rfl, rfl⟩
    | succ f ih => exact ⟨by simp [walkFrom, hx0, n1, ih.2], by simp [walkFrom, h0, n2, ih.1]⟩
  have pre : ∀ {l : List Addr} {a : Addr}, Chain s a (l ++ x :: r) → (a :: l ++ x :: r).Nodup → n ∉ a :: l ++ x :: r → ∀ fuel, walkFrom s' fuel (s'.next a) = none := by
    intro l
    induction l with
    | nil =>
      intro a ha hnd hn fuel
      rw [n3 a (by nd) (by rintro rfl; exact hn (by simp)), ha.1]
      exact (cyc fuel).1
    | cons y l ih =>
      intro a ha hnd hn fuel
      rw [n3 a (by nd) (by rintro rfl; exact hn (by simp)), ha.1]
      cases fuel with
      | zero => rfl
      | succ f =>
        rw [walkFrom, if_neg ha.2.1, ih ha.2.2.2 (by nd) (fun h => hn (by simp only [List.cons_append, List.mem_cons] at h ⊢; exact Or.inr h)) f]
        rfl
  exact pre hc hnd hn

/-- The hypotheses are met: chains built from scratch. -/
example (s : Heap) : ∃ s', runAll s [.headInit 9, .headAdd 9 2, .headAdd 9 1, .nextAdd 2 3, .replace 2 5, .del 1] = some s' ∧ World s' [[9, 5, 3]] := by
  refine hlist_histories_partial (W := []) ⟨by simp, by simp⟩ ?_
  refine .cons (Step.headInit (by simp) (by simp)) ?_
  refine .cons (Step.headAdd (by simp) (by simp)) ?_
  refine .cons (Step.headAdd (by simp) (by simp)) ?_
  refine .cons (Step.nextAdd (l := [9, 1]) (by simp) (by simp)) ?_
  refine .cons (Step.replace (l := [1]) (r := [3]) (by simp) (by simp)) ?_
  refine .cons (Step.del (l := []) (r := [5, 3])) ?_
  exact .nil

end Bfdev.Hlist

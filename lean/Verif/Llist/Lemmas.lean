import Verif.Llist.Spec
/-!
Invariant of the lock-less list.
-/
namespace Bfdev.Llist

/-- The batch is chained internally. -/
def Seg (next : Nat → Nat) : List Nat → Prop
  | a :: b :: r => next a = b ∧ Seg next (b :: r)
  | _ => True

theorem chain_frame {nx nx' : Nat → Nat} {l : List Nat} : ∀ {p : Nat}, (∀ x ∈ l, nx' x = nx x) → Chain nx p l → Chain nx' p l := by
  induction l with
  | nil => exact fun _ h => h
  | cons a l ih =>
    intro p hf h
    exact ⟨h.1, h.2.1, by rw [hf a (by simp)]; exact ih (fun x hx => hf x (by simp [hx])) h.2.2⟩

theorem seg_frame {nx nx' : Nat → Nat} : ∀ {l : List Nat}, (∀ x ∈ l, nx' x = nx x) → Seg nx l → Seg nx' l
  | [], _, _ => trivial
  | [_], _, _ => trivial
  | a :: b :: r, hf, h => ⟨by rw [hf a (by simp)]; exact h.1, seg_frame (fun x hx => hf x (by simp [hx])) h.2⟩

theorem getLast_mem' : ∀ {l : List Nat}, l ≠ [] → l.getLastD 0 ∈ l
  | [], h => absurd rfl h
  | [_], _ => by simp
  | a :: b :: r, _ => by
    have e : (a :: b :: r).getLastD 0 = (b :: r).getLastD 0 := by simp [List.getLastD_cons]
    rw [e]; exact List.mem_cons_of_mem _ (getLast_mem' (by simp))

/-- Changing the link of the last node keeps a batch chained. -/
theorem seg_last {nx : Nat → Nat} {v : Nat} : ∀ {l : List Nat}, l.Nodup → Seg nx l → Seg (upd nx (l.getLastD 0) v) l
  | [], _, _ => trivial
  | [_], _, _ => trivial
  | a :: b :: r, hn, h => by
    obtain ⟨h1, h2⟩ := List.nodup_cons.1 hn
    have hne : a ≠ (b :: r).getLastD 0 := by
      intro e; apply h1; rw [e]; exact getLast_mem' (by simp)
    have e : (a :: b :: r).getLastD 0 = (b :: r).getLastD 0 := by simp [List.getLastD_cons]
    rw [e]
    exact ⟨by rw [upd, if_neg hne]; exact h.1, seg_last h2 h.2⟩

theorem linkUp_frame : ∀ (l : List Nat) (nx : Nat → Nat) (x : Nat), x ∉ l → linkUp nx l x = nx x
  | [], _, _, _ => rfl
  | [_], _, _, _ => rfl
  | a :: b :: r, nx, x, h => by
    have h1 : x ≠ a := fun e => h (by simp [e])
    rw [linkUp, linkUp_frame (b :: r) _ x (fun hm => h (by simp [hm])), upd, if_neg h1]

theorem linkUp_seg : ∀ (l : List Nat) (nx : Nat → Nat), l.Nodup → Seg (linkUp nx l) l
  | [], _, _ => trivial
  | [_], _, _ => trivial
  | a :: b :: r, nx, hn => by
    obtain ⟨h1, h2⟩ := List.nodup_cons.1 hn
    refine ⟨?_, linkUp_seg (b :: r) _ h2⟩
    rw [linkUp, linkUp_frame _ _ a h1, upd, if_pos rfl]

/-- A chained batch in front of a chain. -/
theorem chain_append {nx : Nat → Nat} {p : Nat} {L : List Nat} (hc : Chain nx p L) : ∀ {b : List Nat}, b ≠ [] → (∀ x ∈ b, x ≠ 0) →
    Seg nx b → nx (b.getLastD 0) = p → Chain nx (b.headD 0) (b ++ L)
  | [], h, _, _, _ => absurd rfl h
  | [a], _, h0, _, hp => ⟨rfl, h0 a (by simp), by have : nx a = p := hp; rw [this]; exact hc⟩
  | a :: b :: r, _, h0, hs, hp => by
    have e : (a :: b :: r).getLastD 0 = (b :: r).getLastD 0 := by simp [List.getLastD_cons]
    rw [e] at hp
    refine ⟨rfl, h0 a (by simp), ?_⟩
    rw [hs.1]
    exact chain_append hc (by simp) (fun x hx => h0 x (by simp [hx])) hs.2 hp

theorem chain_zero {nx : Nat → Nat} {l : List Nat} (h : Chain nx 0 l) : l = [] := by
  cases l with
  | nil => rfl
  | cons a l => exact absurd h.1.symm h.2.1

theorem chain_head {nx : Nat → Nat} {p : Nat} {l : List Nat} (h : Chain nx p l) : p = l.headD 0 := by
  cases l with
  | nil => exact h
  | cons a l => exact h.1

theorem chain_isEmpty {nx : Nat → Nat} {p : Nat} {l : List Nat} (h : Chain nx p l) : (p == 0) = l.isEmpty := by
  cases l with
  | nil => simp [show p = 0 from h]
  | cons a l => simp [h.1, h.2.1]

/-- What holds for the local state of a thread. -/
def LocOk (reuse : Bool) (s : Sys) : Loc → Prop
  | .pushA b _ => b ≠ [] ∧ Seg s.next b
  | .pushB b e => b ≠ [] ∧ Seg s.next b ∧ s.next (b.getLastD 0) = e
  | .delA e => reuse = false ∧ (e ≠ 0 → e ∈ pushed s.log)
  | .delB e n => reuse = false ∧ e ≠ 0 ∧ e ∈ pushed s.log ∧ (e ∈ content s.log → s.next e = n)
  | _ => True

structure Inv (reuse : Bool) (s : Sys) : Prop where
  chain : Chain s.next s.head (content s.log)
  legal : Legal s.log
  nodup : (content s.log).Nodup
  sub : ∀ x ∈ content s.log, x ∈ pushed s.log
  bnodup : ∀ t, (s.loc t).batch.Nodup
  bout : ∀ t, ∀ x ∈ (s.loc t).batch, x ≠ 0 ∧ x ∉ content s.log
  bdisj : ∀ t u, t ≠ u → ∀ x ∈ (s.loc t).batch, x ∉ (s.loc u).batch
  bnew : reuse = false → ∀ t, ∀ x ∈ (s.loc t).batch, x ∉ pushed s.log
  loc : ∀ t, LocOk reuse s (s.loc t)

theorem inv_init (reuse : Bool) (next : Nat → Nat) : Inv reuse (init next) :=
  ⟨rfl, trivial, List.nodup_nil, fun _ h => h, fun _ => List.nodup_nil, fun _ _ h => absurd h List.not_mem_nil,
    fun _ _ _ _ h => absurd h List.not_mem_nil, fun _ _ _ h => absurd h List.not_mem_nil, fun _ => trivial⟩

theorem at_loc (s : Sys) (t : Tid) (l : Loc) (u : Tid) : (s.at t l).loc u = if u = t then l else s.loc u := rfl

/-- A thread moves to a place with the same or no batch; nothing else changes. -/
theorem inv_move {reuse : Bool} {s : Sys} (h : Inv reuse s) (t : Tid) (l : Loc) (hb : l.batch = (s.loc t).batch ∨ l.batch = [])
    (hl : LocOk reuse s l) : Inv reuse (s.at t l) := by
  have key : ∀ u, ((s.at t l).loc u).batch = (s.loc u).batch ∨ ((s.at t l).loc u).batch = [] := by
    intro u; rw [at_loc]; split
    · rename_i e; subst e; exact hb
    · exact Or.inl rfl
  have sub : ∀ u x, x ∈ ((s.at t l).loc u).batch → x ∈ (s.loc u).batch := by
    intro u x hx
    rcases key u with e | e
    · exact e ▸ hx
    · rw [e] at hx; cases hx
  refine ⟨h.chain, h.legal, h.nodup, h.sub, ?_, fun u x hx => h.bout u x (sub u x hx),
    fun u v huv x hx hx' => h.bdisj u v huv x (sub u x hx) (sub v x hx'), fun hr u x hx => h.bnew hr u x (sub u x hx), ?_⟩
  · intro u
    rcases key u with e | e
    · rw [e]; exact h.bnodup u
    · rw [e]; exact List.nodup_nil
  · intro u; rw [at_loc]; split
    · exact hl
    · exact h.loc u

/-- A removal that finds nothing. -/
theorem inv_note_none {reuse : Bool} {s : Sys} (h : Inv reuse s) (t : Tid) (h0 : s.head = 0) : Inv reuse (s.note t (.del 0)) := by
  have hc := h.chain
  rw [h0] at hc
  have hnil := chain_zero hc
  have hcont : content (s.note t (.del 0)).log = content s.log := by simp [Sys.note, content, hnil]
  refine ⟨by rw [hcont]; exact h.chain, ⟨by rw [hnil]; rfl, h.legal⟩, by rw [hcont]; exact h.nodup, by rw [hcont]; exact h.sub, h.bnodup,
    by rw [hcont]; exact h.bout, h.bdisj, h.bnew, ?_⟩
  intro u
  have := h.loc u
  show LocOk reuse (s.note t (.del 0)) (s.loc u)
  revert this
  cases s.loc u <;> simp only [LocOk] <;> try exact id
  intro hh
  exact ⟨hh.1, hh.2.1, hh.2.2.1, fun hm => hh.2.2.2 (hcont ▸ hm)⟩

theorem inv_seen {reuse : Bool} {s : Sys} (h : Inv reuse s) (t : Tid) (hr : reuse = false) : Inv reuse (s.seen t) := by
  unfold Sys.seen
  split
  · rename_i h0
    refine inv_move (inv_note_none h t h0) t _ (Or.inr rfl) ⟨hr, fun hh => absurd h0 hh⟩
  · rename_i h0
    refine inv_move h t _ (Or.inr rfl) ⟨hr, fun _ => h.sub _ ?_⟩
    have := chain_head h.chain
    revert h0 this
    cases content s.log with
    | nil => intro h0 e; exact absurd e h0
    | cons a l => intro _ e; rw [e]; simp

/-- Storing links of the nodes of a thread's own batch. -/
theorem inv_write {reuse : Bool} {s : Sys} (h : Inv reuse s) (t : Tid) (nx : Nat → Nat) (b : List Nat) (l : Loc)
    (hb : l.batch = b) (hn : b.Nodup)
    (hout : ∀ x ∈ b, x ≠ 0 ∧ x ∉ content s.log ∧ (∀ u, u ≠ t → x ∉ (s.loc u).batch) ∧ (reuse = false → x ∉ pushed s.log))
    (hf : ∀ x, x ∉ b → nx x = s.next x) (hl : LocOk reuse { s with next := nx } l) : Inv reuse ({ s with next := nx }.at t l) := by
  have hloc : ∀ u, ({ s with next := nx }.at t l).loc u = if u = t then l else s.loc u := fun _ => rfl
  have hfc : ∀ x ∈ content s.log, nx x = s.next x := fun x hx => hf x fun hm => (hout x hm).2.1 hx
  refine ⟨chain_frame hfc h.chain, h.legal, h.nodup, h.sub, ?_, ?_, ?_, ?_, ?_⟩
  · intro u; rw [hloc]; split
    · rw [hb]; exact hn
    · exact h.bnodup u
  · intro u x hx; rw [hloc] at hx; split at hx
    · rw [hb] at hx; exact ⟨(hout x hx).1, (hout x hx).2.1⟩
    · exact h.bout u x hx
  · intro u v huv x hx hx'
    rw [hloc] at hx hx'
    split at hx <;> split at hx'
    · rename_i e1 e2; exact huv (e1.trans e2.symm)
    · rename_i e1 e2; rw [hb] at hx; exact (hout x hx).2.2.1 v e2 hx'
    · rename_i e1 e2; rw [hb] at hx'; exact (hout x hx').2.2.1 u e1 hx
    · exact h.bdisj u v huv x hx hx'
  · intro hr u x hx; rw [hloc] at hx; split at hx
    · rw [hb] at hx; exact (hout x hx).2.2.2 hr
    · exact h.bnew hr u x hx
  · intro u; rw [hloc]; split
    · exact hl
    · rename_i hu
      have hlu := h.loc u
      have hsep : ∀ x ∈ (s.loc u).batch, nx x = s.next x := fun x hx => hf x fun hm => (hout x hm).2.2.1 u hu hx
      revert hlu hsep
      show LocOk reuse s (s.loc u) → _ → LocOk reuse ({ s with next := nx }.at t l) (s.loc u)
      cases s.loc u <;> simp only [LocOk, Loc.batch] <;> intro hlu hsep <;> try exact hlu
      · exact ⟨hlu.1, seg_frame hsep hlu.2⟩
      · exact ⟨hlu.1, seg_frame hsep hlu.2.1, by
          show nx _ = _
          rw [hsep _ (getLast_mem' hlu.1)]; exact hlu.2.2⟩
      · refine ⟨hlu.1, hlu.2.1, hlu.2.2.1, fun hm => ?_⟩
        show nx _ = _
        rw [hfc _ hm]; exact hlu.2.2.2 hm

/-- A batch goes onto the list. -/
theorem inv_push {reuse : Bool} {s : Sys} (h : Inv reuse s) (t : Tid) (b : List Nat) (hloc : s.loc t = .pushB b s.head) :
    Inv reuse (({ s with head := b.headD 0 }.note t (.push b (s.head == 0))).at t .idle) := by
  have hl := h.loc t
  have hbo := h.bout t
  have hbn := h.bnodup t
  have hdj := h.bdisj t
  rw [hloc] at hl hbo hbn hdj
  simp only [LocOk, Loc.batch] at hl hbo hbn hdj
  have sub : ∀ u x, x ∈ (if u = t then Loc.idle else s.loc u).batch → u ≠ t ∧ x ∈ (s.loc u).batch := by
    intro u x hx
    split at hx
    · cases hx
    · exact ⟨by assumption, hx⟩
  refine ⟨chain_append h.chain hl.1 (fun x hx => (hbo x hx).1) hl.2.1 hl.2.2, ⟨chain_isEmpty h.chain, h.legal⟩, ?_, ?_, ?_, ?_, ?_, ?_, ?_⟩
  · exact List.nodup_append.2 ⟨hbn, h.nodup, fun x hx y hy e => (hbo x hx).2 (e ▸ hy)⟩
  · intro x hx
    rcases List.mem_append.1 hx with e | e
    · exact List.mem_append_left _ e
    · exact List.mem_append_right _ (h.sub x e)
  · intro u
    show (if u = t then Loc.idle else s.loc u).batch.Nodup
    split
    · exact List.nodup_nil
    · exact h.bnodup u
  · intro u x hx
    obtain ⟨hu, hx⟩ := sub u x hx
    refine ⟨(h.bout u x hx).1, fun hm => ?_⟩
    rcases List.mem_append.1 hm with e | e
    · exact hdj u (Ne.symm hu) x e hx
    · exact (h.bout u x hx).2 e
  · intro u v huv x hx hx'
    exact h.bdisj u v huv x (sub u x hx).2 (sub v x hx').2
  · intro hr u x hx hm
    obtain ⟨hu, hx⟩ := sub u x hx
    rcases List.mem_append.1 hm with e | e
    · exact hdj u (Ne.symm hu) x e hx
    · exact h.bnew hr u x hx e
  · intro u
    show LocOk reuse _ (if u = t then Loc.idle else s.loc u)
    split
    · trivial
    · have hlu := h.loc u
      have hnew := fun hr => h.bnew hr t
      rw [hloc] at hnew
      revert hlu
      cases s.loc u <;> simp only [LocOk] <;> intro hlu <;> try exact hlu
      · exact ⟨hlu.1, fun he => List.mem_append_right _ (hlu.2 he)⟩
      · refine ⟨hlu.1, hlu.2.1, List.mem_append_right _ hlu.2.2.1, fun hm => ?_⟩
        rcases List.mem_append.1 hm with e | e
        · exact absurd hlu.2.2.1 (hnew hlu.1 _ e)
        · exact hlu.2.2.2 e

/-- The list is taken. -/
theorem inv_grab {reuse : Bool} {s : Sys} (h : Inv reuse s) (t : Tid) (hb : (s.loc t).batch = []) :
    Inv reuse (({ s with head := 0 }.note t (.grab s.head s.next)).at t .idle) := by
  have hbat : ∀ u, (if u = t then Loc.idle else s.loc u).batch = (s.loc u).batch := by
    intro u; split
    · rename_i e; subst e; exact hb.symm
    · rfl
  refine ⟨rfl, ⟨h.chain, h.legal⟩, List.nodup_nil, fun x hx => absurd hx List.not_mem_nil, ?_, ?_, ?_, ?_, ?_⟩
  · intro u; show (if u = t then Loc.idle else s.loc u).batch.Nodup; rw [hbat]; exact h.bnodup u
  · intro u x hx
    have hx : x ∈ (if u = t then Loc.idle else s.loc u).batch := hx
    rw [hbat] at hx
    exact ⟨(h.bout u x hx).1, fun hm => absurd hm List.not_mem_nil⟩
  · intro u v huv x hx hx'
    have hx : x ∈ (if u = t then Loc.idle else s.loc u).batch := hx
    have hx' : x ∈ (if v = t then Loc.idle else s.loc v).batch := hx'
    rw [hbat] at hx hx'
    exact h.bdisj u v huv x hx hx'
  · intro hr u x hx
    have hx : x ∈ (if u = t then Loc.idle else s.loc u).batch := hx
    rw [hbat] at hx
    exact h.bnew hr u x hx
  · intro u
    show LocOk reuse _ (if u = t then Loc.idle else s.loc u)
    split
    · trivial
    · have hlu := h.loc u
      revert hlu
      cases s.loc u <;> simp only [LocOk] <;> intro hlu <;> try exact hlu
      exact ⟨hlu.1, hlu.2.1, hlu.2.2.1, fun hm => absurd hm List.not_mem_nil⟩

/-- The first node is taken. -/
theorem inv_del {reuse : Bool} {s : Sys} (h : Inv reuse s) (t : Tid) (n : Nat) (hloc : s.loc t = .delB s.head n) :
    Inv reuse (({ s with head := n }.note t (.del s.head)).at t .idle) := by
  have hl := h.loc t
  rw [hloc] at hl
  obtain ⟨hr, h0, hp, hn⟩ := hl
  have hch := h.chain
  have hnd := h.nodup
  have hsub := h.sub
  obtain ⟨L, hL⟩ : ∃ L, content s.log = s.head :: L := by
    cases hC : content s.log with
    | nil => rw [hC] at hch; exact absurd hch h0
    | cons a L => rw [hC] at hch; exact ⟨L, by rw [hch.1]⟩
  have hcont : content ((t, Ev.del s.head) :: s.log) = L := by simp [content, hL]
  rw [hL] at hch hnd hsub
  have hn := hn (by rw [hL]; simp)
  have hch2 := hch.2.2
  rw [hn] at hch2
  have hsm : ∀ x, x ∈ L → x ∈ content s.log := fun x hx => by rw [hL]; exact List.mem_cons_of_mem _ hx
  have hbat : ∀ u, (if u = t then Loc.idle else s.loc u).batch = (s.loc u).batch := by
    intro u; split
    · rename_i e; subst e; rw [hloc]; rfl
    · rfl
  refine ⟨?_, ⟨by rw [hL]; rfl, h.legal⟩, ?_, ?_, ?_, ?_, ?_, ?_, ?_⟩
  · show Chain s.next n (content ((t, Ev.del s.head) :: s.log)); rw [hcont]; exact hch2
  · show (content ((t, Ev.del s.head) :: s.log)).Nodup; rw [hcont]; exact (List.nodup_cons.1 hnd).2
  · intro x hx
    have hx : x ∈ content ((t, Ev.del s.head) :: s.log) := hx
    rw [hcont] at hx; exact hsub x (List.mem_cons_of_mem _ hx)
  · intro u; show (if u = t then Loc.idle else s.loc u).batch.Nodup; rw [hbat]; exact h.bnodup u
  · intro u x hx
    have hx : x ∈ (if u = t then Loc.idle else s.loc u).batch := hx
    rw [hbat] at hx
    refine ⟨(h.bout u x hx).1, fun hm => (h.bout u x hx).2 (hsm x ?_)⟩
    have hm : x ∈ content ((t, Ev.del s.head) :: s.log) := hm
    rw [hcont] at hm; exact hm
  · intro u v huv x hx hx'
    have hx : x ∈ (if u = t then Loc.idle else s.loc u).batch := hx
    have hx' : x ∈ (if v = t then Loc.idle else s.loc v).batch := hx'
    rw [hbat] at hx hx'
    exact h.bdisj u v huv x hx hx'
  · intro hr u x hx
    have hx : x ∈ (if u = t then Loc.idle else s.loc u).batch := hx
    rw [hbat] at hx
    exact h.bnew hr u x hx
  · intro u
    show LocOk reuse _ (if u = t then Loc.idle else s.loc u)
    split
    · trivial
    · have hlu := h.loc u
      revert hlu
      cases s.loc u <;> simp only [LocOk] <;> intro hlu <;> try exact hlu
      refine ⟨hlu.1, hlu.2.1, hlu.2.2.1, fun hm => hlu.2.2.2 (hsm _ ?_)⟩
      have hm : _ ∈ content ((t, Ev.del s.head) :: s.log) := hm
      rw [hcont] at hm; exact hm

theorem inv_step {reuse : Bool} {s s' : Sys} {t : Tid} {a : Act} (h : Inv reuse s) (ok : Ok reuse s a) (hs : step s t a = some s') :
    Inv reuse s' := by
  unfold step at hs
  split at hs
  · -- a push begins
    rename_i b hloc
    split at hs
    · cases hs
    · rename_i hne
      cases hs
      refine inv_write h t _ b _ rfl ok.1 (fun x hx => ?_) (fun x hx => linkUp_frame b s.next x hx) ⟨hne, linkUp_seg b s.next ok.1⟩
      have := ok.2 x hx
      exact ⟨this.1, this.2.1, fun u _ => this.2.2.1 u, this.2.2.2⟩
  · rename_i b e hloc
    cases hs
    have hl := h.loc t
    have hbo := h.bout t
    have hbn := h.bnodup t
    have hdj := h.bdisj t
    have hnw := fun hr => h.bnew hr t
    rw [hloc] at hl hbo hbn hdj hnw
    simp only [LocOk, Loc.batch] at hl hbo hbn hdj hnw
    have hlm := getLast_mem' hl.1
    refine inv_write h t _ b _ rfl hbn (fun x hx => ⟨(hbo x hx).1, (hbo x hx).2, fun u hu => hdj u (Ne.symm hu) x hx, fun hr => hnw hr x hx⟩)
      (fun x hx => ?_) ⟨hl.1, seg_last hbn hl.2, ?_⟩
    · show upd _ _ _ x = _
      rw [upd, if_neg]; intro e; exact hx (e ▸ hlm)
    · show upd _ _ _ _ = _
      rw [upd, if_pos rfl]
  · rename_i b e hloc
    split at hs
    · rename_i he
      cases hs
      subst he
      exact inv_push h t b hloc
    · cases hs
      have hl := h.loc t
      rw [hloc] at hl
      exact inv_move h t _ (Or.inl (by rw [hloc]; rfl)) ⟨hl.1, hl.2.1⟩
  · cases hs; exact inv_move h t _ (Or.inr rfl) trivial
  · cases hs; exact inv_move h t _ (Or.inr rfl) trivial
  · rename_i p hloc
    split at hs
    · rename_i he
      cases hs
      subst he
      exact inv_grab h t (by rw [hloc]; rfl)
    · cases hs; exact inv_move h t _ (Or.inr rfl) trivial
  · cases hs; exact inv_seen h t ok
  · rename_i e hloc
    split at hs
    · cases hs; exact inv_move h t _ (Or.inr rfl) trivial
    · rename_i he
      cases hs
      have hl := h.loc t
      rw [hloc] at hl
      exact inv_move h t _ (Or.inr rfl) ⟨hl.1, he, hl.2 he, fun _ => rfl⟩
  · rename_i e n hloc
    split at hs
    · rename_i he
      cases hs
      subst he
      exact inv_del h t n hloc
    · cases hs
      have hl := h.loc t
      rw [hloc] at hl
      exact inv_seen h t hl.1
  · cases hs

theorem inv_reach {reuse : Bool} {s : Sys} (h : Reach reuse s) : Inv reuse s := by
  induction h with
  | init next => exact inv_init reuse next
  | step _ ok hs ih => exact inv_step ih ok hs

end Bfdev.Llist

import Verif.Ilist.Debug
/-!
Property C112: indexed lists under any history, deletions of the first of several equal nodes included, and with a comparison callback that answers anything at all,
differently each time it is asked. The functions of `Verif/Ilist/Model.lean` once more, with the comparison replaced by an oracle that is told the number of
the call, and with the list of the questions asked.
-/
namespace Bfdev.Ilist
open Dlist (Addr Ring Links Same ring_frame)

/-- The questions asked so far: the two nodes handed to the callback. -/
abbrev Asked := List (Addr × Addr)

/-- The answer to call number `k` of the callback about two nodes. -/
abbrev Oracle := Nat → Addr → Addr → Int

/-- The loop of `bfdev_ilist_add`, ilist.c:95-102. -/
def askScan (s : State) (head first inode : Addr) (f : Oracle) : Nat → Addr → Option Addr → Asked → Option (Addr × Addr × Option Addr × Asked)
  | 0, _, _, _ => none
  | fuel + 1, walk, prev, q =>
    if f q.length inode walk < 0 then some (walk, walk, prev, q ++ [(inode, walk)])
    else
      let prev := some walk
      let next := s.index.next walk
      if next ≠ first then askScan s head first inode f fuel next prev (q ++ [(inode, walk)]) else some (head, next, prev, q ++ [(inode, walk)])

/-- Whether the new node enters the index, ilist.c:105. -/
def askLeads (f : Oracle) (inode : Addr) (q : Asked) : Option Addr → Bool × Asked
  | none => (true, q)
  | some prev => (f q.length prev inode != 0, q ++ [(prev, inode)])

/-- `bfdev_ilist_add`, ilist.c:69-114. -/
def askAdd (s : State) (head inode : Addr) (f : Oracle) (fuel : Nat) : Option (State × Asked) :=
  if !Dlist.checkEmpty s.nodes inode || !Dlist.checkEmpty s.index inode then some (s, [])
  else if headEmpty s head then some ({ s with nodes := Dlist.addPrev s.nodes head inode }, [])
  else
    match askScan s head (s.nodes.next head) inode f fuel (s.nodes.next head) none [] with
    | none => none
    | some (next, walk, prev, q) =>
      some ({ nodes := Dlist.addPrev s.nodes next inode
              index := if (askLeads f inode q prev).1 then Dlist.addPrev s.index walk inode else s.index }, (askLeads f inode q prev).2)

/-- A call, with the answers its callback will give. -/
def askRun (head : Addr) (fuel : Nat) (s : State) : Op × Oracle → Option State
  | (.add x, f) => (askAdd s head x f fuel).map (·.1)
  | (.del x, _) => some (Ilist.del s head x)

def askRunAll (head : Addr) (fuel : Nat) (s : State) : List (Op × Oracle) → Option State
  | [] => some s
  | o :: os => (askRun head fuel s o).bind fun s => askRunAll head fuel s os

/-! ## With a comparison that does not change its mind this is the model of indexed lists -/

theorem askScan_plain (s : State) (head first inode : Addr) (cmp : Addr → Addr → Int) : ∀ (fuel : Nat) (walk : Addr) (prev : Option Addr) (q : Asked),
    (askScan s head first inode (fun _ => cmp) fuel walk prev q).map (fun r => (r.1, r.2.1, r.2.2.1)) = scan s head first inode cmp fuel walk prev := by
  intro fuel
  induction fuel with
  | zero => intro _ _ _; rfl
  | succ fuel ih =>
    intro walk prev q
    rw [askScan, scan]
    split
    · rfl
    · dsimp only
      split
      · exact ih _ _ _
      · rfl

/-- Adding with a fixed comparison is the addition of C25. -/
theorem askAdd_plain (s : State) (head inode : Addr) (cmp : Addr → Addr → Int) (fuel : Nat) :
    (askAdd s head inode (fun _ => cmp) fuel).map (·.1) = add s head inode cmp fuel := by
  unfold askAdd add
  split
  · rfl
  · split
    · rfl
    · rw [← askScan_plain s head _ inode cmp fuel _ none []]
      cases askScan s head (s.nodes.next head) inode (fun _ => cmp) fuel (s.nodes.next head) none [] with
      | none => rfl
      | some r =>
        obtain ⟨a, b, p, q⟩ := r
        cases p <;> rfl

/-! ## The invariant -/

/-- The node list is a ring through the head and the nodes. The index consists of rings of nodes, whichever: forward and backward links agree, and nodes that
are not in the list are linked to themselves. -/
structure Sane (head : Addr) (s : State) (l : List Addr) : Prop where
  ring : Ring s.nodes (head :: l)
  nodup : (head :: l).Nodup
  out : ∀ z, z ≠ head → z ∉ l → Ring s.nodes [z]
  np : ∀ x, s.index.next (s.index.prev x) = x
  pn : ∀ x, s.index.prev (s.index.next x) = x
  self : ∀ x, x ∉ l → s.index.next x = x

theorem Sane.inj {head : Addr} {s : State} {l : List Addr} (h : Sane head s l) {x y : Addr} (e : s.index.next x = s.index.next y) : x = y := by
  rw [← h.pn x, e, h.pn]

theorem Sane.next_mem {head : Addr} {s : State} {l : List Addr} (h : Sane head s l) {x : Addr} (hx : x ∈ l) : s.index.next x ∈ l :=
  Decidable.byContradiction fun hn => hn (by rw [h.inj (h.self _ hn)]; exact hx)

theorem sub_length {V l : List Addr} (h : V.Nodup) (hs : ∀ x ∈ V, x ∈ l) : V.length ≤ l.length := by
  induction V generalizing l with
  | nil => simp
  | cons a V ih =>
    obtain ⟨h1, h2⟩ := List.nodup_cons.1 h
    have ha := hs a (by simp)
    have := ih (l := l.erase a) h2 fun x hx => (List.mem_erase_of_ne (fun (e : x = a) => h1 (e ▸ hx))).2 (hs x (by simp [hx]))
    rw [List.length_erase_of_mem ha] at this
    have := List.length_pos_of_mem ha
    simp only [List.length_cons]
    omega

/-- The nodes passed so far, when the walk along the index is at `walk`. -/
structure Path (s : State) (l : List Addr) (first walk : Addr) (V : List Addr) : Prop where
  nodup : V.Nodup
  sub : ∀ x ∈ V, x ∈ l
  hfirst : first ∈ V
  hwalk : walk ∈ V
  back : ∀ v ∈ V, v ≠ first → s.index.prev v ∈ V ∧ s.index.prev v ≠ walk

theorem Path.step {head : Addr} {s : State} {l : List Addr} (h : Sane head s l) {first walk : Addr} {V : List Addr} (p : Path s l first walk V)
    (hne : s.index.next walk ≠ first) : s.index.next walk ∉ V ∧ Path s l first (s.index.next walk) (s.index.next walk :: V) := by
  have hv : s.index.next walk ∉ V := fun hm => (p.back _ hm hne).2 (h.pn walk)
  refine ⟨hv, List.nodup_cons.2 ⟨hv, p.nodup⟩, fun x hx => ?_, List.mem_cons_of_mem _ p.hfirst, List.mem_cons_self, fun v hm hf => ?_⟩
  · rcases List.mem_cons.1 hx with rfl | hx
    · exact h.next_mem (p.sub _ p.hwalk)
    · exact p.sub x hx
  · rcases List.mem_cons.1 hm with rfl | hm
    · rw [h.pn]
      exact ⟨List.mem_cons_of_mem _ p.hwalk, fun e => hv (e ▸ p.hwalk)⟩
    · have := (p.back v hm hf).1
      exact ⟨List.mem_cons_of_mem _ this, fun e => hv (e ▸ this)⟩

theorem askScan_ok {head : Addr} {s : State} {l : List Addr} (h : Sane head s l) {first inode : Addr} (f : Oracle) :
    ∀ (fuel : Nat) (V : List Addr) (walk : Addr) (prev : Option Addr) (q : Asked), Path s l first walk V → l.length < fuel + V.length → (∀ p, prev = some p → p ∈ l) →
      ∃ nx w pv r, askScan s head first inode f fuel walk prev q = some (nx, w, pv, q ++ r) ∧ w ∈ l ∧ (nx = head ∨ nx ∈ l) ∧ (∀ p, pv = some p → p ∈ l) ∧
        (∀ p ∈ r, p.1 = inode ∧ p.2 ∈ l ∧ (p.2 = walk ∨ p.2 ∉ V)) ∧ (r.map (·.2)).Nodup := by
  intro fuel
  induction fuel with
  | zero =>
    intro V walk prev q p hf _
    have := sub_length p.nodup p.sub
    omega
  | succ fuel ih =>
    intro V walk prev q p hf hp
    have hw := p.sub _ p.hwalk
    rw [askScan]
    split
    · exact ⟨walk, walk, prev, [(inode, walk)], rfl, hw, Or.inr hw, hp, by simpa using hw, by simp⟩
    · dsimp only
      by_cases hn : s.index.next walk = first
      · rw [if_neg (by simpa using hn)]
        exact ⟨head, s.index.next walk, some walk, [(inode, walk)], rfl, h.next_mem hw, Or.inl rfl, fun p e => by cases e; exact hw, by simpa using hw, by simp⟩
      · rw [if_pos hn]
        obtain ⟨hv, p'⟩ := p.step h hn
        obtain ⟨nx, w, pv, r, a1, a2, a3, a4, a5, a6⟩ := ih _ _ (some walk) (q ++ [(inode, walk)]) p' (by simp only [List.length_cons]; omega) (fun p e => by cases e; exact hw)
        refine ⟨nx, w, pv, (inode, walk) :: r, by rw [a1]; simp, a2, a3, a4, fun p hp => ?_, ?_⟩
        · rcases List.mem_cons.1 hp with rfl | hp
          · exact ⟨rfl, hw, Or.inl rfl⟩
          · obtain ⟨b1, b2, b3⟩ := a5 p hp
            refine ⟨b1, b2, Or.inr ?_⟩
            rcases b3 with b3 | b3
            · rw [b3]; exact hv
            · exact fun hm => b3 (List.mem_cons_of_mem _ hm)
        · rw [List.map_cons, List.nodup_cons]
          refine ⟨fun hm => ?_, a6⟩
          obtain ⟨p', hp', e⟩ := List.mem_map.1 hm
          have e : p'.2 = walk := e
          rcases (a5 p' hp').2.2 with b3 | b3
          · rw [e] at b3; rw [b3] at p; exact hv (b3 ▸ p.hwalk)
          · exact b3 (by rw [e]; exact List.mem_cons_of_mem _ p.hwalk)

/-! ### Single links -/

theorem link_both {s : Dlist.Heap} (np : ∀ x, s.next (s.prev x) = x) (pn : ∀ x, s.prev (s.next x) = x) {w n : Addr} (hn : s.next n = n) (hw : w ≠ n) :
    (∀ x, (Dlist.addPrev s w n).next ((Dlist.addPrev s w n).prev x) = x) ∧ (∀ x, (Dlist.addPrev s w n).prev ((Dlist.addPrev s w n).next x) = x) ∧
      ∀ x, x ≠ n → x ≠ s.prev w → (Dlist.addPrev s w n).next x = s.next x := by
  have hp : s.prev w ≠ n := fun e => hw (by rw [← np w, e, hn])
  have hpn : s.prev n = n := by have := pn n; rwa [hn] at this
  have N : ∀ x, (Dlist.addPrev s w n).next x = if x = n then w else if x = s.prev w then n else s.next x := by
    intro x
    simp only [Dlist.addPrev, Dlist.insert, Dlist.Heap.setNext, Dlist.Heap.setPrev, Dlist.upd]
  have P : ∀ x, (Dlist.addPrev s w n).prev x = if x = n then s.prev w else if x = w then n else s.prev x := by
    intro x
    simp only [Dlist.addPrev, Dlist.insert, Dlist.Heap.setNext, Dlist.Heap.setPrev, Dlist.upd]
  refine ⟨fun x => ?_, fun x => ?_, fun x h1 h2 => ?_⟩
  · rw [P, N]
    have e1 := np x
    have e2 := np w
    by_cases h1 : x = n
    · rw [if_pos h1, if_neg hp, if_pos rfl, h1]
    · rw [if_neg h1]
      by_cases h2 : x = w
      · rw [if_pos h2, if_pos rfl, h2]
      · rw [if_neg h2, if_neg (fun e => h1 (by rw [← np x, e, hn])), if_neg (fun e => h2 (by rw [← np x, e, np])), np]
  · rw [N, P]
    by_cases h1 : x = n
    · rw [if_pos h1, if_neg hw, if_pos rfl, h1]
    · rw [if_neg h1]
      by_cases h2 : x = s.prev w
      · rw [if_pos h2, if_pos rfl, h2]
      · rw [if_neg h2, if_neg (fun e => h1 (by rw [← pn x, e, hpn])), if_neg (fun e => h2 (by rw [← pn x, e])), pn]
  · rw [N, if_neg h1, if_neg h2]

theorem unlink_both {s : Dlist.Heap} (np : ∀ x, s.next (s.prev x) = x) (pn : ∀ x, s.prev (s.next x) = x) (n : Addr) :
    (∀ x, (Dlist.delInit s n).next ((Dlist.delInit s n).prev x) = x) ∧ (∀ x, (Dlist.delInit s n).prev ((Dlist.delInit s n).next x) = x) ∧
      (Dlist.delInit s n).next n = n ∧ ∀ x, s.next x = x → (Dlist.delInit s n).next x = x := by
  have N : ∀ x, (Dlist.delInit s n).next x = if x = n then n else if x = s.prev n then s.next n else s.next x := by
    intro x
    simp only [Dlist.delInit, Dlist.deluf, Dlist.headInit, Dlist.Heap.setNext, Dlist.Heap.setPrev, Dlist.upd]
  have hnx : (if n = s.prev n then s.next n else s.next n) = s.next n := by split <;> rfl
  have P : ∀ x, (Dlist.delInit s n).prev x = if x = n then n else if x = s.next n then s.prev n else s.prev x := by
    intro x
    simp only [Dlist.delInit, Dlist.deluf, Dlist.headInit, Dlist.Heap.setNext, Dlist.Heap.setPrev, Dlist.upd, hnx]
  refine ⟨fun x => ?_, fun x => ?_, ?_, fun x hx => ?_⟩
  · rw [P, N]
    by_cases h1 : x = n
    · rw [if_pos h1, if_pos rfl, h1]
    · rw [if_neg h1]
      by_cases h2 : x = s.next n
      · rw [if_pos h2]
        by_cases h3 : s.prev n = n
        · exact absurd (by rw [h2]; have := np n; rwa [h3] at this) h1
        · rw [if_neg h3, if_pos rfl, h2]
      · rw [if_neg h2, if_neg (fun e => h2 (by rw [← e, np])), if_neg (fun e => h1 (by rw [← np x, e, np])), np]
  · rw [N, P]
    by_cases h1 : x = n
    · rw [if_pos h1, if_pos rfl, h1]
    · rw [if_neg h1]
      by_cases h2 : x = s.prev n
      · rw [if_pos h2]
        by_cases h3 : s.next n = n
        · exact absurd (by rw [h2]; have := pn n; rwa [h3] at this) h1
        · rw [if_neg h3, if_pos rfl, h2]
      · rw [if_neg h2, if_neg (fun e => h2 (by rw [← e, pn])), if_neg (fun e => h1 (by rw [← pn x, e, pn])), pn]
  · rw [N, if_pos rfl]
  · rw [N]
    by_cases h1 : x = n
    · rw [if_pos h1, h1]
    · rw [if_neg h1]
      by_cases h2 : x = s.prev n
      · exact absurd (by rw [← hx, h2, np]) h1
      · rw [if_neg h2, hx]

/-! ### The operations -/

theorem askAdd_ok {head : Addr} {s : State} {l : List Addr} (h : Sane head s l) {x : Addr} (hx : x ∉ l) (hxh : x ≠ head) (f : Oracle) {fuel : Nat} (hf : l.length < fuel) :
    ∃ s' A B q, askAdd s head x f fuel = some (s', q) ∧ l = A ++ B ∧ Sane head s' (A ++ x :: B) ∧ q.length ≤ l.length + 1 ∧
      ∀ p ∈ q, (p.1 = x ∧ p.2 ∈ l) ∨ (p.1 ∈ l ∧ p.2 = x) := by
  have ho1 := h.out x hxh hx
  have ho2 := h.self x hx
  -- the node list after the insertion before `nx`
  have nodes : ∀ nx, (nx = head ∨ nx ∈ l) → ∃ A B, l = A ++ B ∧ Ring (Dlist.addPrev s.nodes nx x) (head :: (A ++ x :: B)) ∧ (head :: (A ++ x :: B)).Nodup ∧
      ∀ z, z ≠ head → z ∉ A ++ x :: B → Ring (Dlist.addPrev s.nodes nx x) [z] := by
    intro nx hnx
    have hnd := h.nodup
    have key : ∀ A B, l = A ++ B → (B ++ head :: A).head? = some nx → Ring (Dlist.addPrev s.nodes nx x) (head :: (A ++ x :: B)) ∧
        (head :: (A ++ x :: B)).Nodup ∧ ∀ z, z ≠ head → z ∉ A ++ x :: B → Ring (Dlist.addPrev s.nodes nx x) [z] := by
      rintro A B rfl hh
      obtain ⟨n1, n2⟩ := ring_insert (A := head :: A) (B := B) (n := x) h.ring h.nodup (by grind) hh
      refine ⟨n1, by grind, fun z hz hz' => ?_⟩
      exact ring_frame (h.out z hz (by grind)) fun y hy => n2 y (by simp at hy; subst hy; grind)
    rcases hnx with rfl | hm
    · exact ⟨l, [], by simp, key l [] (by simp) rfl⟩
    · obtain ⟨A, B, e⟩ := List.append_of_mem hm
      exact ⟨A, nx :: B, e, key A (nx :: B) e rfl⟩
  unfold askAdd
  rw [if_neg (by simp [Dlist.checkEmpty, ho2, ho1.1])]
  by_cases he : headEmpty s head = true
  · rw [if_pos he]
    obtain ⟨A, B, e, r1, r2, r3⟩ := nodes head (Or.inl rfl)
    refine ⟨_, A, B, [], rfl, e, ⟨r1, r2, r3, h.np, h.pn, fun z hz => h.self z (by rw [e]; grind)⟩, by simp, by simp⟩
  · rw [if_neg he]
    have hne : l ≠ [] := fun e => he (by subst e; exact self_empty h.ring)
    obtain ⟨a, t, rfl⟩ : ∃ a t, l = a :: t := List.exists_cons_of_ne_nil hne
    have hfirst : s.nodes.next head = a := h.ring.1
    rw [hfirst]
    have p0 : Path s (a :: t) a a [a] := ⟨by simp, by simp, by simp, by simp, by simp⟩
    obtain ⟨nx, w, pv, r, a1, a2, a3, a4, a5, a6⟩ := askScan_ok h (inode := x) f fuel [a] a none [] p0 (by simpa using Nat.lt_succ_of_lt hf) (by simp)
    rw [a1]
    dsimp only
    rw [List.nil_append]
    obtain ⟨A, B, e, r1, r2, r3⟩ := nodes nx a3
    have hsub : ∀ z, z ∉ A ++ x :: B → z ∉ a :: t := fun z hz hm => hz (by rw [e] at hm; grind)
    have hlen : r.length ≤ (a :: t).length := by
      have := sub_length (l := a :: t) a6 fun y hy => by
        obtain ⟨p, hp, rfl⟩ := List.mem_map.1 hy
        exact (a5 p hp).2.1
      simpa using this
    have hask : (askLeads f x r pv).2.length ≤ (a :: t).length + 1 ∧ ∀ p ∈ (askLeads f x r pv).2, (p.1 = x ∧ p.2 ∈ a :: t) ∨ (p.1 ∈ a :: t ∧ p.2 = x) := by
      have hr : ∀ p ∈ r, (p.1 = x ∧ p.2 ∈ a :: t) ∨ (p.1 ∈ a :: t ∧ p.2 = x) := fun p hp => Or.inl ⟨(a5 p hp).1, (a5 p hp).2.1⟩
      cases pv with
      | none => exact ⟨Nat.le_succ_of_le hlen, hr⟩
      | some pv =>
        refine ⟨by show (r ++ [(pv, x)]).length ≤ _; rw [List.length_append, List.length_singleton]; omega, fun p hp => ?_⟩
        rcases List.mem_append.1 hp with hp | hp
        · exact hr p hp
        · rw [List.mem_singleton.1 hp]; exact Or.inr ⟨a4 pv rfl, rfl⟩
    refine ⟨_, A, B, _, rfl, e, ?_, hask.1, hask.2⟩
    by_cases hl : (askLeads f x r pv).1 = true
    · rw [if_pos hl]
      obtain ⟨b1, b2, b3⟩ := link_both h.np h.pn ho2 (w := w) (n := x) (fun e => hx (e ▸ a2))
      refine ⟨r1, r2, r3, b1, b2, fun z hz => ?_⟩
      have hz' := hsub z hz
      show (Dlist.addPrev s.index w x).next z = z
      rw [b3 z (fun e => hz (by grind)) (fun e => hz' ?_), h.self z hz']
      have : s.index.next z = w := by rw [e, h.np]
      rw [h.self z hz'] at this
      rw [this]; exact a2
    · rw [if_neg hl]
      exact ⟨r1, r2, r3, h.np, h.pn, fun z hz => h.self z (hsub z hz)⟩

theorem askAdd_present {head : Addr} {s : State} {l : List Addr} (h : Sane head s l) {x : Addr} (hx : x ∈ l) (f : Oracle) (fuel : Nat) :
    askAdd s head x f fuel = some (s, []) := by
  obtain ⟨A, B, e⟩ := List.append_of_mem hx
  have hr := h.ring
  have hnd := h.nodup
  rw [e] at hr hnd
  have := ring_not_self (A := head :: A) (B := B) (x := x) hr hnd (by simp)
  unfold askAdd
  rw [if_pos (by simp [this])]

theorem del_ok {head : Addr} {s : State} {l : List Addr} (h : Sane head s l) {x : Addr} (hxh : x ≠ head) : Sane head (del s head x) (l.erase x) := by
  have hidx : (∀ y, (delIndex s head x).next ((delIndex s head x).prev y) = y) ∧ (∀ y, (delIndex s head x).prev ((delIndex s head x).next y) = y) ∧
      (delIndex s head x).next x = x ∧ ∀ y, s.index.next y = y → (delIndex s head x).next y = y := by
    unfold delIndex
    by_cases h1 : nodeEmpty s x = true
    · rw [if_pos h1]
      exact ⟨h.np, h.pn, by simpa [nodeEmpty, Dlist.checkEmpty] using h1, fun _ e => e⟩
    · rw [if_neg h1, if_neg]
      · exact unlink_both h.np h.pn x
      · rintro ⟨-, h2⟩
        have h2 : s.index.next (s.index.next x) = s.index.next x := by simpa [nodeEmpty, Dlist.checkEmpty] using h2
        exact h1 (by simpa [nodeEmpty, Dlist.checkEmpty] using h.inj h2)
  have hnd := h.nodup
  obtain ⟨hh, hl⟩ := List.nodup_cons.1 hnd
  have hself : ∀ z, z ∉ l.erase x → (delIndex s head x).next z = z := by
    intro z hz
    by_cases e : z = x
    · rw [e]; exact hidx.2.2.1
    · exact hidx.2.2.2 z (h.self z fun hm => hz ((List.mem_erase_of_ne e).2 hm))
  by_cases hx : x ∈ l
  · obtain ⟨A, B, e⟩ := List.append_of_mem hx
    have hxA : x ∉ A := fun hm => by rw [e] at hl; exact (List.nodup_append.1 hl).2.2 x hm x (by simp) rfl
    have he : l.erase x = A ++ B := by rw [e, List.erase_append_right _ hxA, List.erase_cons_head]
    have hr := h.ring
    rw [e] at hr hnd
    obtain ⟨n1, n2, n3⟩ := ring_delInit (A := head :: A) (B := B) (x := x) hr hnd (by simp)
    refine ⟨by rw [he]; exact n1, by rw [he]; grind, fun z hz hz' => ?_, hidx.1, hidx.2.1, hself⟩
    by_cases e' : z = x
    · rw [e']; exact n2
    · rw [he] at hz'
      exact ring_frame (h.out z hz (by rw [e]; grind)) fun y hy => n3 y (by simp at hy; subst hy; grind)
  · have he : l.erase x = l := List.erase_of_not_mem hx
    obtain ⟨-, n2⟩ := self_delInit (h.out x hxh hx)
    rw [he] at hself ⊢
    exact ⟨ring_frame h.ring fun z _ => n2 z, hnd, fun z hz hz' => ring_frame (h.out z hz hz') fun y _ => n2 y, hidx.1, hidx.2.1, hself⟩

theorem sane_fresh (head : Addr) : Sane head fresh [] :=
  ⟨⟨rfl, rfl⟩, by simp, fun _ _ _ => ⟨rfl, rfl⟩, fun _ => rfl, fun _ => rfl, fun _ _ => rfl⟩

theorem listLoop_path {head : Addr} {s : State} {l : List Addr} (h : Sane head s l) {first : Addr} : ∀ (fuel : Nat) (V : List Addr) (walk : Addr), Path s l first walk V →
    l.length < fuel + V.length → listLoop s.index first fuel true (s.index.next walk) = some true := by
  have hint : ∀ y, integrity s.index y (s.index.next y) = true := fun y => by simp [integrity, h.pn]
  intro fuel
  induction fuel with
  | zero =>
    intro V walk p hf
    have := sub_length p.nodup p.sub
    omega
  | succ fuel ih =>
    intro V walk p hf
    rw [listLoop]
    by_cases hn : s.index.next walk = first
    · simp [hn]
    · rw [if_pos (by simpa using hn), hint]
      obtain ⟨hv, p'⟩ := p.step h hn
      exact ih _ _ p' (by simp only [List.length_cons]; omega)

/-- The checks of the default configuration find nothing to report. -/
theorem Sane.check {head : Addr} {s : State} {l : List Addr} (h : Sane head s l) {fuel : Nat} (hf : l.length < fuel) : headCheck s head fuel = some true := by
  unfold headCheck
  rw [check_ring h.ring h.nodup fuel hf, Option.bind_some]
  by_cases he : headEmpty s head = true
  · rw [if_neg (by simp [he])]
  · rw [if_pos (by simp [he])]
    have hne : l ≠ [] := fun e => he (by subst e; exact self_empty h.ring)
    obtain ⟨a, t, rfl⟩ : ∃ a t, l = a :: t := List.exists_cons_of_ne_nil hne
    have hfirst : s.nodes.next head = a := h.ring.1
    have p0 : Path s (a :: t) a a [a] := ⟨by simp, by simp, by simp, by simp, by simp⟩
    rw [hfirst, listCheck, show integrity s.index a (s.index.next a) = true by simp [integrity, h.pn],
      listLoop_path h fuel [a] a p0 (by simpa using Nat.lt_succ_of_lt hf)]
    rfl

/-! ## The property -/

theorem askRunAll_ok {head : Addr} {fuel : Nat} : ∀ (ops : List (Op × Oracle)) {s : State} {l : List Addr}, Sane head s l →
    (∀ o ∈ ops, o.1 ≠ .add head ∧ o.1 ≠ .del head) → l.length + ops.length < fuel →
    ∃ s' l', askRunAll head fuel s ops = some s' ∧ Sane head s' l' ∧ l'.length ≤ l.length + ops.length ∧ ∀ x, x ∈ l' ↔ alive (ops.map (·.1)) l x := by
  intro ops
  induction ops with
  | nil => intro s l h _ _; exact ⟨s, l, rfl, h, by simp, fun _ => Iff.rfl⟩
  | cons o ops ih =>
    intro s l h ok hf
    simp only [List.length_cons] at hf ⊢
    have ok' : ∀ o ∈ ops, o.1 ≠ .add head ∧ o.1 ≠ .del head := fun o ho => ok o (List.mem_cons_of_mem _ ho)
    have hnd := (List.nodup_cons.1 h.nodup).2
    obtain ⟨op, f⟩ := o
    cases op with
    | add x =>
      have hxh : x ≠ head := fun e => (ok _ List.mem_cons_self).1 (by rw [e])
      by_cases hx : x ∈ l
      · obtain ⟨s', l', e, h', hl, hm⟩ := ih h ok' (by omega)
        refine ⟨s', l', by rw [askRunAll, askRun, askAdd_present h hx]; exact e, h', by omega, fun y => (hm y).trans ?_⟩
        exact alive_congr (fun z => by simp; intro e; rw [e]; exact hx) y
      · obtain ⟨s1, A, B, q, e1, e2, h1, -, -⟩ := askAdd_ok h hx hxh f (fuel := fuel) (by omega)
        have hlen : (A ++ x :: B).length = l.length + 1 := by rw [e2]; simp; omega
        obtain ⟨s', l', e, h', hl, hm⟩ := ih h1 ok' (by omega)
        refine ⟨s', l', by rw [askRunAll, askRun, e1]; exact e, h', by omega, fun y => (hm y).trans ?_⟩
        exact alive_congr (fun z => by rw [e2]; simp only [List.mem_append, List.mem_cons]; grind) y
    | del x =>
      have hxh : x ≠ head := fun e => (ok _ List.mem_cons_self).2 (by rw [e])
      have hle := @List.length_erase_le _ _ x l
      obtain ⟨s', l', e, h', hl, hm⟩ := ih (del_ok h hxh) ok' (by omega)
      refine ⟨s', l', e, h', by omega, fun y => (hm y).trans ?_⟩
      refine alive_congr (fun z => ?_) y
      rw [hnd.mem_erase_iff]
      simp only [List.mem_filter, decide_eq_true_eq]
      exact And.comm

/-- **C112.** Whatever is added and deleted, in any order, the first of several equal nodes included, and whatever the comparison answers, call by call: every call
ends, and the list a caller walks holds exactly the nodes added and not deleted since, each once. All other nodes are linked nowhere, neither in the list nor
in the index, and the checks of the default configuration pass. -/
theorem ilist_any_answers (head : Addr) (ops : List (Op × Oracle)) (ok : ∀ o ∈ ops, o.1 ≠ .add head ∧ o.1 ≠ .del head) (fuel : Nat) (hf : ops.length < fuel) :
    ∃ s l, askRunAll head fuel fresh ops = some s ∧ forEach s head fuel = some l ∧ l.Nodup ∧ (∀ x, x ∈ l ↔ alive (ops.map (·.1)) [] x) ∧
      headCheck s head fuel = some true ∧
      ∀ x, x ≠ head → x ∉ l → s.nodes.next x = x ∧ s.nodes.prev x = x ∧ s.index.next x = x ∧ s.index.prev x = x := by
  obtain ⟨s, l, e, h, hl, hm⟩ := askRunAll_ok ops (sane_fresh head) ok (fuel := fuel) (by simpa using hf)
  have hl : l.length < fuel := by simp at hl; omega
  refine ⟨s, l, e, (Dlist.traversals h.ring h.nodup fuel hl).1, (List.nodup_cons.1 h.nodup).2, hm, h.check hl, fun x hx hxl => ?_⟩
  obtain ⟨o1, o2⟩ := h.out x hx hxl
  have o3 := h.self x hxl
  refine ⟨o1, o2, o3, ?_⟩
  have := h.pn x
  rwa [o3] at this

/-- **C112.** One more call in such a history: an addition of a new node asks at most once about each node of the list, and once more, always about the new node and a
node of the list, and puts the new node somewhere between the others; an addition of a node of the list changes nothing, and a deletion takes out that node
only. The order of the others never changes. -/
theorem ilist_any_step (head : Addr) (ops : List (Op × Oracle)) (ok : ∀ o ∈ ops, o.1 ≠ .add head ∧ o.1 ≠ .del head) (fuel : Nat) (hf : ops.length + 1 < fuel)
    (x : Addr) (hx : x ≠ head) (f : Oracle) :
    ∃ s l, askRunAll head fuel fresh ops = some s ∧ forEach s head fuel = some l ∧ forEach (del s head x) head fuel = some (l.erase x) ∧
      (x ∈ l → askAdd s head x f fuel = some (s, [])) ∧
      (x ∉ l → ∃ s' A B q, askAdd s head x f fuel = some (s', q) ∧ l = A ++ B ∧ forEach s' head fuel = some (A ++ x :: B) ∧ q.length ≤ l.length + 1 ∧
        ∀ p ∈ q, (p.1 = x ∧ p.2 ∈ l) ∨ (p.1 ∈ l ∧ p.2 = x)) := by
  obtain ⟨s, l, e, h, hl, hm⟩ := askRunAll_ok ops (sane_fresh head) ok (fuel := fuel) (by simpa using Nat.lt_of_succ_lt hf)
  have hl : l.length + 1 < fuel := by simp at hl; omega
  have each : ∀ {s' : State} {l' : List Addr}, Sane head s' l' → l'.length < fuel → forEach s' head fuel = some l' :=
    fun h' hl' => (Dlist.traversals h'.ring h'.nodup fuel hl').1
  refine ⟨s, l, e, each h (by omega), each (del_ok h hx) (by have := @List.length_erase_le _ _ x l; omega), fun hm => askAdd_present h hm f fuel, fun hm => ?_⟩
  obtain ⟨s', A, B, q, a1, a2, a3, a4, a5⟩ := askAdd_ok h hm hx f (fuel := fuel) (by omega)
  exact ⟨s', A, B, q, a1, a2, each a3 (by rw [a2] at hl; simp at hl ⊢; omega), a4, a5⟩

/-! ### A concrete case: answers that contradict each other, and the deletion of a node that heads a group -/

def fickle : Oracle := fun k a b => if (k + a + b) % 3 = 0 then 0 else if (k + a) % 2 = 0 then 1 else -1

def anyOps : List (Op × Oracle) :=
  [(.add 20, fickle), (.add 30, fickle), (.add 41, fun _ _ _ => 0), (.add 50, fickle), (.del 20, fickle), (.add 20, fun k _ _ => k), (.del 99, fickle), (.add 30, fickle), (.add 61, fickle)]

example : ∀ o ∈ anyOps, o.1 ≠ .add 1 ∧ o.1 ≠ .del 1 := by simp [anyOps]
example : ((askRunAll 1 20 fresh anyOps).bind fun s => forEach s 1 20) = some [61, 30, 41, 50, 20] := by decide +kernel
example : ((askRunAll 1 20 fresh anyOps).bind fun s => headCheck s 1 20) = some true := by decide +kernel
example : ((askRunAll 1 20 fresh anyOps).map fun s => (askAdd s 1 8 fickle 20).map (·.2)) = some (some [(8, 61), (8, 30), (8, 20), (20, 8)]) := by
  decide +kernel

end Bfdev.Ilist

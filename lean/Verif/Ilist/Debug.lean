import Verif.Ilist.Props
import Verif.Dlist.Debug
/-!
The checks of `BFDEV_DEBUG_ILIST`, which the default configuration turns on (CMakeLists.txt:61), together with those of the lists underneath (`Verif/Dlist/Debug.lean`).
The reports are not modelled.
-/
namespace Bfdev.Ilist
open Dlist (Addr Ring Links ring_rotate addD addPrevD)

/-- `ilist_integrity_check`, ilist.c:14-38. -/
def integrity (s : Dlist.Heap) (prev next : Addr) : Bool :=
  if s.next prev ≠ next then false
  else if s.prev next ≠ prev then false
  else true

/-- The loop of `ilist_list_check`, ilist.c:47-51; `none` when the fuel runs out. -/
def listLoop (s : Dlist.Heap) (head : Addr) : Nat → Bool → Addr → Option Bool
  | 0, _, _ => none
  | fuel + 1, success, next =>
    if success && next != head then listLoop s head fuel (integrity s next (s.next next)) (s.next next) else some success

/-- `ilist_list_check`, ilist.c:40-54. -/
def listCheck (s : Dlist.Heap) (head : Addr) (fuel : Nat) : Option Bool := listLoop s head fuel (integrity s head (s.next head)) (s.next head)

/-- `ilist_head_check`, ilist.c:56-66: the result of the walk over the index is dropped. -/
def headCheck (s : State) (head : Addr) (fuel : Nat) : Option Bool :=
  (listCheck s.nodes head fuel).bind fun success =>
    if success && !headEmpty s head then (listCheck s.index (s.nodes.next head) fuel).map fun _ => success else some success

/-- The part of `bfdev_ilist_add` between the checks, ilist.c:80-108, on checked lists. -/
def addC (s : State) (head inode : Addr) (cmp : Addr → Addr → Int) (fuel : Nat) : Option State :=
  if !Dlist.checkEmpty s.nodes inode || !Dlist.checkEmpty s.index inode then some s
  else if headEmpty s head then some { s with nodes := addPrevD s.nodes head inode }
  else
    match scan s head (s.nodes.next head) inode cmp fuel (s.nodes.next head) none with
    | none => none
    | some (next, walk, prev) =>
      some { nodes := addPrevD s.nodes next inode
             index := if leads cmp inode prev then addPrevD s.index walk inode else s.index }

/-- `bfdev_ilist_add`, ilist.c:69-114, with the checks. Simplified: the check at the end, whose result is dropped, is also made after the early return for a node that is not initialised. -/
def addD (s : State) (head inode : Addr) (cmp : Addr → Addr → Int) (fuel : Nat) : Option State :=
  (headCheck s head fuel).bind fun b =>
    if !b then some s else (addC s head inode cmp fuel).bind fun s => (headCheck s head fuel).map fun _ => s

/-- The index part of `bfdev_ilist_del`, ilist.c:127-134, on checked lists; `bfdev_list_del_init` has no check. -/
def delIndexD (s : State) (head inode : Addr) : Dlist.Heap :=
  if nodeEmpty s inode then s.index
  else if s.nodes.next inode ≠ head ∧ nodeEmpty s (s.index.next inode) = true then
    Dlist.delInit (Dlist.addD s.index inode inode) inode
  else Dlist.delInit s.index inode

/-- `bfdev_ilist_del`, ilist.c:116-141, with the checks. -/
def delD (s : State) (head inode : Addr) (fuel : Nat) : Option State :=
  (headCheck s head fuel).bind fun b =>
    if !b then some s
    else
      let s : State := { nodes := Dlist.delInit s.nodes inode, index := delIndexD s head inode }
      (headCheck s head fuel).map fun _ => s

/-- The operations as the default configuration compiles them. -/
def Op.runD (cmp : Addr → Addr → Int) (head : Addr) (fuel : Nat) (s : State) : Op → Option State
  | .add x => Ilist.addD s head x cmp fuel
  | .del x => Ilist.delD s head x fuel

def runAllD (cmp : Addr → Addr → Int) (head : Addr) (fuel : Nat) (s : State) : List Op → Option State
  | [] => some s
  | op :: ops =>
    match op.runD cmp head fuel s with
    | none => none
    | some s => runAllD cmp head fuel s ops

theorem loop_links {s : Dlist.Heap} {head : Addr} : ∀ {l : List Addr} {a : Addr}, Links s a l head → head ∉ l → ∀ fuel, l.length < fuel →
    listLoop s head fuel (integrity s a (s.next a)) (s.next a) = some true := by
  intro l
  induction l with
  | nil =>
    intro a h _ fuel hf
    obtain ⟨f, rfl⟩ : ∃ f, fuel = f + 1 := ⟨fuel - 1, by simp at hf; omega⟩
    simp [listLoop, integrity, h.1, h.2]
  | cons x l ih =>
    intro a h hn fuel hf
    obtain ⟨f, rfl⟩ : ∃ f, fuel = f + 1 := ⟨fuel - 1, by simp at hf; omega⟩
    simp only [List.mem_cons, not_or] at hn
    have := ih h.2.2 hn.2 f (by simp at hf; omega)
    have hx : (x != head) = true := by simpa using fun e => hn.1 e.symm
    have h1 : integrity s a (s.next a) = true := by simp [integrity, h.1, h.2.1]
    rw [h1]
    simp only [listLoop]
    rw [h.1, hx]
    simpa using this

theorem check_ring {s : Dlist.Heap} {head : Addr} {l : List Addr} (h : Ring s (head :: l)) (hnd : (head :: l).Nodup) (fuel : Nat) (hf : l.length < fuel) :
    listCheck s head fuel = some true := loop_links h (List.nodup_cons.1 hnd).1 fuel hf

theorem check_holds {cmp : Addr → Addr → Int} {sep : Addr → Addr → Prop} {head : Addr} {s : State} {l : List Addr}
    (h : Holds cmp sep head s l) (fuel : Nat) (hf : l.length < fuel) : headCheck s head fuel = some true := by
  obtain ⟨gs, h, rfl⟩ := h
  unfold headCheck
  rw [check_ring h.ring h.nodup fuel hf]
  simp only [Option.bind_some, Bool.true_and]
  split
  · rename_i he
    cases gs with
    | nil => have := self_empty h.ring; simp [headEmpty, this] at he
    | cons g gs =>
      have hfirst : s.nodes.next head = g.1 := by
        have := h.ring
        rw [flat_cons] at this
        exact this.1
      have hl := flat_length (g :: gs)
      have hnd : (leaders (g :: gs)).Nodup := ((leaders_sub _).nodup (List.nodup_cons.1 h.nodup).2)
      rw [hfirst, check_ring (l := leaders gs) (h.index (by simp)) hnd fuel (by simp [leaders] at hl ⊢; omega)]
      rfl
  · rfl

theorem addPrevD_mem {s : Dlist.Heap} {c : List Addr} {a n : Addr} (h : Ring s c) (ha : a ∈ c) (hn : n ∉ c) : addPrevD s a n = Dlist.addPrev s a n := by
  obtain ⟨A, B, rfl⟩ := List.append_of_mem ha
  exact Dlist.addPrevD_ring ((ring_rotate s A a B).1 h) (by grind)

theorem addC_eq {cmp : Addr → Addr → Int} {sep : Addr → Addr → Prop} {head : Addr} {s : State}
    {l : List Addr} (h : Holds cmp sep head s l) {x : Addr} (hxh : x ≠ head) (fuel : Nat) (hf : l.length < fuel) :
    addC s head x cmp fuel = add s head x cmp fuel := by
  by_cases hx : x ∈ l
  · obtain ⟨gs, h, rfl⟩ := h
    obtain ⟨A, B, e⟩ := List.append_of_mem hx
    have hr := h.ring
    have hnd := h.nodup
    rw [e] at hr hnd
    have := ring_not_self (A := head :: A) (B := B) (x := x) hr hnd (by simp)
    simp [add, addC, this]
  · obtain ⟨gs, h, rfl⟩ := h
    obtain ⟨ho1, ho2⟩ := h.out x hxh hx
    unfold add addC
    have hg : ¬ (!Dlist.checkEmpty s.nodes x || !Dlist.checkEmpty s.index x) = true := by simp [self_empty ho1, self_empty ho2]
    rw [if_neg hg, if_neg hg]
    have hxr : x ∉ head :: flat gs := by simp [hxh, hx]
    cases gs with
    | nil =>
      have he : headEmpty s head = true := self_empty h.ring
      rw [if_pos he, if_pos he, addPrevD_mem h.ring (by simp) hxr]
    | cons g gs =>
      have he : ¬ headEmpty s head = true := by
        intro e
        have := (ring_self_iff h.ring h.nodup).1 e
        simp [flat_cons] at this
      rw [if_neg he, if_neg he]
      have hfirst : s.nodes.next head = g.1 := by
        have := h.ring
        rw [flat_cons] at this
        exact this.1
      have hl := flat_length (g :: gs)
      have hr := h.index (by simp)
      have hnd : (leaders (g :: gs)).Nodup := (leaders_sub _).nodup (List.nodup_cons.1 h.nodup).2
      obtain ⟨A, B, w, -, -, hAB, hw, hs⟩ := scan_all (cmp := cmp) (head := head) (x := x) hr hnd fuel (by omega)
      rw [hfirst, hs]
      have hlead : ∀ z ∈ leaders B ++ leaders A, z ∈ leaders (g :: gs) := by
        intro z hz
        rw [← hAB, leaders_append]
        simp at hz ⊢
        exact hz.symm
      have hwm : w ∈ leaders (g :: gs) := hlead _ (List.mem_of_mem_head? hw)
      have hnm : (leaders B).headD head ∈ head :: flat (g :: gs) := by
        cases hB : leaders B with
        | nil => simp
        | cons b bs => exact List.mem_cons_of_mem _ (leaders_mem (hlead _ (by rw [hB]; simp)))
      dsimp only
      rw [addPrevD_mem h.ring hnm hxr, addPrevD_mem hr hwm (fun e => hx (leaders_mem e))]

theorem delIndexD_eq {cmp : Addr → Addr → Int} {sep : Addr → Addr → Prop} {head : Addr} {s : State}
    {l : List Addr} (h : Holds cmp sep head s l) {x : Addr} (hxh : x ≠ head) : delIndexD s head x = delIndex s head x := by
  obtain ⟨gs, h, rfl⟩ := h
  unfold delIndexD delIndex
  split
  · rfl
  · rename_i hne
    have hxl : x ∈ leaders gs := by
      apply Classical.byContradiction
      intro hn
      apply hne
      by_cases hx : x ∈ flat gs
      · obtain ⟨g, hg, hxg⟩ := List.mem_flatMap.1 hx
        rcases List.mem_cons.1 hxg with e | e
        · exact absurd (List.mem_map.2 ⟨g, hg, e.symm⟩) hn
        · exact self_empty (h.follow g hg x e).1
      · exact self_empty (h.out x hxh hx).2
    have hnd : (leaders gs).Nodup := (leaders_sub _).nodup (List.nodup_cons.1 h.nodup).2
    have hr := h.index (by rintro rfl; simp at hxl)
    obtain ⟨A, B, e⟩ := List.append_of_mem hxl
    rw [e] at hr hnd
    have hr1 := (ring_rotate _ A x B).1 hr
    have hnd1 : (x :: (B ++ A)).Nodup := by grind
    have hne2 : B ++ A ≠ [] := by
      intro e
      rw [e] at hr1
      exact hne (self_empty hr1)
    have : nodeEmpty s (s.index.next x) = false := by
      generalize B ++ A = t at *
      cases t with
      | nil => exact absurd rfl hne2
      | cons y t =>
        rw [hr1.1]
        exact ring_not_self (A := [x]) (B := t) (x := y) hr1 hnd1 (by simp)
    rw [if_neg (by simp [this]), if_neg (by simp [this])]

theorem op_eq {cmp : Addr → Addr → Int} {sep : Addr → Addr → Prop} (hc : Sep cmp sep) {head : Addr} {s : State}
    {l : List Addr} (h : Holds cmp sep head s l) (op : Op) (ok : op.Ok cmp head l) (fuel : Nat) (hf : l.length + 1 < fuel) :
    op.runD cmp head fuel s = op.run cmp head fuel s := by
  obtain ⟨s', e, h'⟩ := op_sound hc h op ok fuel (by omega)
  have hl := spec_length cmp l op
  have c1 := check_holds h fuel (by omega)
  have c2 := check_holds h' fuel (by omega)
  rw [e]
  cases op with
  | add x =>
    simp only [Op.run] at e
    simp only [Op.runD, addD, c1, Option.bind_some, Bool.not_true, Bool.false_eq_true, if_false]
    rw [addC_eq h ok fuel (by omega), e]
    simp [c2]
  | del x =>
    simp only [Op.run, del, Option.some.injEq] at e
    simp only [Op.runD, delD, c1, Option.bind_some, Bool.not_true, Bool.false_eq_true, if_false, delIndexD_eq h ok.1, e, c2]
    rfl

theorem runsD {cmp : Addr → Addr → Int} {sep : Addr → Addr → Prop} (hc : Sep cmp sep) {head : Addr} {s : State}
    {l : List Addr} (h : Holds cmp sep head s l) (ops : List Op) (ok : OkAll cmp head l ops) (fuel : Nat)
    (hf : l.length + ops.length < fuel) : runAllD cmp head fuel s ops = runAll cmp head fuel s ops := by
  induction ops generalizing s l with
  | nil => rfl
  | cons op ops ih =>
    simp only [List.length_cons] at hf
    obtain ⟨s1, e1, h1⟩ := op_sound hc h op ok.1 fuel (by omega)
    have := spec_length cmp l op
    simp only [runAllD, runAll, op_eq hc h op ok.1 fuel (by omega), e1]
    exact ih h1 ok.2 (by omega)

/-- The checks never refuse what the user may do: every history of additions and deletions that C25 covers does the same with the checks as without, and the walks the
checks make end. -/
theorem checked_histories {cmp : Addr → Addr → Int} (h : Order cmp) (head : Addr) (ops : List Op) (ok : OkAll cmp head [] ops) (fuel : Nat) (hf : ops.length < fuel) :
    ∃ s, runAllD cmp head fuel fresh ops = some s ∧ runAll cmp head fuel fresh ops = some s := by
  obtain ⟨s, l, e, -⟩ := ilist_histories_partial h head ops ok fuel hf
  exact ⟨s, by rw [runsD (sep_order h) (holds_fresh cmp _ head) ops ok fuel (by simpa using hf), e], e⟩

theorem loop_true {s : Dlist.Heap} {head : Addr} : ∀ {fuel : Nat} {a : Addr},
    listLoop s head fuel (integrity s a (s.next a)) (s.next a) = some true → ∃ l, Links s a l head ∧ head ∉ l ∧ l.length < fuel := by
  intro fuel
  induction fuel with
  | zero => intro a h; cases h
  | succ f ih =>
    intro a h
    have hp : integrity s a (s.next a) = true := by
      cases hi : integrity s a (s.next a) with
      | true => rfl
      | false => rw [hi] at h; simp [listLoop] at h
    have hp' : s.prev (s.next a) = a := by simpa [integrity] using hp
    rw [hp] at h
    by_cases hh : s.next a = head
    · exact ⟨[], ⟨hh, by rw [← hh]; exact hp'⟩, by simp, by simp⟩
    · have hb : (s.next a != head) = true := by simpa using hh
      simp only [listLoop, hb, Bool.and_self, if_true] at h
      obtain ⟨l, h1, h2, h3⟩ := ih h
      exact ⟨s.next a :: l, ⟨rfl, hp', h1⟩, by simp [h2, Ne.symm hh], by simp; omega⟩

/-- What the check accepts is a ring, and what it refuses is not: if the node list under the head is damaged, additions and deletions leave everything as it is. -/
theorem misuse_refused {s : State} {head : Addr} {fuel : Nat} {b : Bool} (h : headCheck s head fuel = some b) :
    (b = true → ∃ l, Ring s.nodes (head :: l) ∧ head ∉ l) ∧
    (b = false → (∀ l, head ∉ l → l.length < fuel → ¬ Ring s.nodes (head :: l)) ∧ ∀ x cmp, addD s head x cmp fuel = some s ∧ delD s head x fuel = some s) := by
  unfold headCheck at h
  obtain ⟨c, h1, h2⟩ := Option.bind_eq_some_iff.1 h
  have hcb : c = b := by
    split at h2
    · obtain ⟨_, -, h3⟩ := Option.map_eq_some_iff.1 h2
      exact h3
    · simpa using h2
  subst hcb
  constructor
  · rintro rfl
    obtain ⟨l, h3, h4, -⟩ := loop_true h1
    exact ⟨l, h3, h4⟩
  · rintro rfl
    constructor
    · intro l hl hf hr
      have := loop_links hr hl fuel hf
      unfold listCheck at h1
      rw [this] at h1
      cases h1
    · intro x cmp
      have hc : headCheck s head fuel = some false := by unfold headCheck; rw [h1]; rfl
      simp [addD, delD, hc]

/-- A history with equal nodes, additions of nodes already there, and deletions. -/
example : OkAll byKey 1 [] [.add 4, .add 2, .add 3, .add 3, .add 5, .del 4, .del 3] := by
  have hd : ∀ y : Addr, y ∈ [4, 2, 3, 5] → y ≠ 1 := by decide
  refine ⟨hd 4 (by simp), hd 2 (by simp), hd 3 (by simp), hd 3 (by simp), hd 5 (by simp), ⟨by decide, fun _ => Or.inl ?_⟩, ⟨by decide, fun _ => Or.inr ⟨[2], [5], ?_, 2, by simp, rfl⟩⟩, trivial⟩
  · have e : [Op.add 4, .add 2, .add 3, .add 3, .add 5].foldl (Op.spec byKey) [] = [2, 3, 5, 4] := by decide +kernel
    intro y hy
    have hy' : y ∈ [Op.add 4, .add 2, .add 3, .add 3, .add 5].foldl (Op.spec byKey) [] := hy
    rw [e] at hy'
    simp at hy'
    rcases hy' with rfl | rfl | rfl | rfl <;> decide
  · decide +kernel

/-- A damaged list: node 2 does not point back to the head. -/
example : headCheck { nodes := ⟨fun x => if x = 1 then 2 else if x = 2 then 1 else x, fun x => x⟩, index := ⟨fun x => x, fun x => x⟩ } 1 5 = some false := by decide +kernel

end Bfdev.Ilist

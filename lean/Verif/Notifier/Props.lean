import Verif.Notifier.Spec
import Verif.Ilist.Props
/-!
C26: notifier chains.
-/
namespace Bfdev.Notifier
open Dlist (Addr Ring Links Same ring_frame)

/-- The chain under `head` holds the nodes `l`, in calling order. -/
def Holds (prio : Addr → Int) (head : Addr) (s : Ilist.State) (l : List Addr) : Prop :=
  Ilist.Holds (chainCmp prio) (fun _ _ => True) head s l

theorem noTie (prio : Addr → Int) : Ilist.NoTie (chainCmp prio) := fun a b => by
  simp only [chainCmp]; split <;> decide

theorem place_enter (prio : Addr → Int) (x : Addr) (l : List Addr) : Ilist.place (chainCmp prio) x l = enter prio x l := by
  induction l with
  | nil => rfl
  | cons y l ih =>
    by_cases h : prio x ≤ prio y
    · have h' : chainCmp prio x y < 0 := by simp [chainCmp]; omega
      simp [Ilist.place, enter, h, h']
    · have h' : ¬ chainCmp prio x y < 0 := by simp [chainCmp]; omega
      have h'' : ¬ prio x ≤ prio y := h
      simp only [Ilist.place] at ih ⊢
      simp [enter, h'', h', ih]

/-- An initialised node stays as it is when it is initialised again. -/
theorem holds_nodeInit {prio : Addr → Int} {head x : Addr} {s : Ilist.State} {l : List Addr} (h : Holds prio head s l) (hx : x ∉ l)
    (hxh : x ≠ head) : Holds prio head (Ilist.nodeInit s x) l := by
  obtain ⟨gs, h, rfl⟩ := h
  obtain ⟨ho1, ho2⟩ := h.out x hxh hx
  have hn : ∀ z, Same s.nodes (Ilist.nodeInit s x).nodes z := fun z => by
    obtain ⟨h1, h2⟩ := Dlist.ring_headInit s.nodes x
    by_cases e : z = x
    · subst e; exact ⟨h1.1.trans ho1.1.symm, h1.2.trans ho1.2.symm⟩
    · exact h2 z e
  have hi : ∀ z, Same s.index (Ilist.nodeInit s x).index z := fun z => by
    obtain ⟨h1, h2⟩ := Dlist.ring_headInit s.index x
    by_cases e : z = x
    · subst e; exact ⟨h1.1.trans ho2.1.symm, h1.2.trans ho2.2.symm⟩
    · exact h2 z e
  exact ⟨gs, ⟨ring_frame h.ring (fun z _ => hn z), h.nodup, fun e => ring_frame (h.index e) (fun z _ => hi z),
    fun g hg f hf => ⟨ring_frame (h.follow g hg f hf).1 (fun z _ => hi z), (h.follow g hg f hf).2⟩,
    fun z hz hz' => ⟨ring_frame (h.out z hz hz').1 (fun z _ => hn z), ring_frame (h.out z hz hz').2 (fun z _ => hi z)⟩, h.parted⟩, rfl⟩

theorem register_sound {prio : Addr → Int} {head x : Addr} {s : Ilist.State} {l : List Addr} (h : Holds prio head s l) (hx : x ∉ l)
    (hxh : x ≠ head) (fuel : Nat) (hf : l.length < fuel) :
    ∃ s', register s head x true prio fuel = some (0, s') ∧ Holds prio head s' (enter prio x l) := by
  obtain ⟨s', e, h'⟩ := Ilist.add_absent (Ilist.sep_noTie (noTie prio)) (holds_nodeInit h hx hxh) hx hxh fuel hf
  refine ⟨s', by simp [register, e], ?_⟩
  rw [place_enter] at h'
  exact h'

theorem unregister_sound {prio : Addr → Int} {head x : Addr} {s : Ilist.State} {l : List Addr} (h : Holds prio head s l)
    (hxh : x ≠ head) : Holds prio head (unregister s head x) (l.erase x) := by
  by_cases hx : x ∈ l
  · exact Ilist.del_present (Ilist.sep_noTie (noTie prio)) h hx (Or.inl fun y _ _ => noTie prio x y)
  · exact Ilist.del_absent h hx hxh

theorem holds_next {prio : Addr → Int} {head x : Addr} {s : Ilist.State} {p r : List Addr} (h : Holds prio head s (p ++ x :: r)) :
    s.nodes.next x = r.headD head := by
  obtain ⟨gs, h, e⟩ := h
  have hr := h.ring
  rw [e, Ring, Dlist.links_append] at hr
  cases r with
  | nil => exact hr.2.1
  | cons y r => exact hr.2.1

theorem holds_first {prio : Addr → Int} {head : Addr} {s : Ilist.State} {l : List Addr} (h : Holds prio head s l) :
    s.nodes.next head = l.headD head := by
  obtain ⟨gs, h, e⟩ := h
  have hr := h.ring
  rw [e] at hr
  cases l with
  | nil => exact hr.1
  | cons y r => exact hr.1

theorem one_bit (i : Nat) (hi : i < 32) : retRemove.getLsbD i = decide (i = 0) ∧ retStop.getLsbD i = decide (i = 1) ∧
    (~~~(1 : BitVec 32)).getLsbD i = decide (i ≠ 0) := by
  have : ∀ i : Fin 32, retRemove.getLsbD i = decide (i.val = 0) ∧ retStop.getLsbD i = decide (i.val = 1) ∧
    (~~~(1 : BitVec 32)).getLsbD i = decide (i.val ≠ 0) := by decide
  exact this ⟨i, hi⟩

theorem and_bit {r m : BitVec 32} {k : Nat} (hk : k < 32) (hm : ∀ i, i < 32 → m.getLsbD i = decide (i = k)) :
    r &&& m ≠ 0 ↔ r.getLsbD k = true := by
  constructor
  · intro h
    cases hb : r.getLsbD k with
    | true => rfl
    | false =>
      exfalso; apply h
      apply BitVec.eq_of_getLsbD_eq
      intro i hi
      rw [BitVec.getLsbD_and, hm i hi]
      by_cases e : i = k
      · subst e; rw [hb, Bool.false_and]; exact (BitVec.getLsbD_zero).symm
      · rw [decide_eq_false e, Bool.and_false]; exact (BitVec.getLsbD_zero).symm
  · intro h e
    have : (r &&& m).getLsbD k = true := by rw [BitVec.getLsbD_and, h, hm k hk]; simp
    rw [e] at this
    exact absurd this (by rw [show (0 : BitVec 32).getLsbD k = false from BitVec.getLsbD_zero]; decide)

theorem and_one (r : BitVec 32) : r &&& retRemove ≠ 0 ↔ asksRemove r = true := and_bit (by decide) (fun i hi => (one_bit i hi).1)

theorem and_two (r : BitVec 32) : r &&& retStop ≠ 0 ↔ asksStop r = true := and_bit (by decide) (fun i hi => (one_bit i hi).2.1)

theorem keep_remove (r : BitVec 32) (h : ¬ r &&& retRemove ≠ 0) : r &&& ~~~1 = r := by
  have h0 : r.getLsbD 0 = false := by
    cases hb : r.getLsbD 0 with
    | false => rfl
    | true => exact absurd ((and_one r).2 hb) h
  apply BitVec.eq_of_getLsbD_eq
  intro i hi
  rw [BitVec.getLsbD_and, (one_bit i hi).2.2]
  by_cases e : i = 0
  · subst e; rw [h0]; rfl
  · rw [decide_eq_true e, Bool.and_true]

theorem visit_ret {σ : Type} (cb : σ → Addr → σ × BitVec 32) (head x : Addr) (o : Out σ) :
    (visit cb head x o).ret = (cb o.world x).2 &&& ~~~1 := by
  simp only [visit]
  split
  · rfl
  · rename_i h; rw [keep_remove _ h]

theorem stop_bit (r : BitVec 32) : (r &&& ~~~1) &&& retStop ≠ 0 ↔ asksStop r = true := by
  rw [and_two]
  simp only [asksStop]
  rw [BitVec.getLsbD_and, (one_bit 1 (by decide)).2.2]
  simp only [ne_eq, Nat.one_ne_zero, not_false_eq_true, decide_true, Bool.and_true]

theorem visit_chain {σ : Type} {cb : σ → Addr → σ × BitVec 32} {prio : Addr → Int} {head x : Addr} {o : Out σ} {p r : List Addr}
    (h : Holds prio head o.chain (p ++ x :: r)) :
    Holds prio head (visit cb head x o).chain (p ++ (if asksRemove (cb o.world x).2 then [] else [x]) ++ r) := by
  have hnd := Ilist.holds_nodup h
  have hxh : x ≠ head := by grind
  have hxp : x ∉ p := by grind
  simp only [visit, and_one]
  split
  · have := unregister_sound h hxh
    rw [unregister] at this
    rw [List.erase_append_right _ hxp] at this
    simpa using this
  · simpa using h

theorem round_mem {σ : Type} (cb : σ → Addr → σ × BitVec 32) : ∀ (l : List Addr) (n : Nat) (w : σ), ∀ q ∈ round cb l n w, q.1 ∈ l := by
  intro l
  induction l with
  | nil => intro n w q h; simp [round] at h
  | cons x l ih =>
    intro n w q h
    cases n with
    | zero => simp [round] at h
    | succ n =>
      rw [round] at h
      rcases List.mem_cons.1 h with e | e
      · rw [e]; simp
      · split at e
        · simp at e
        · exact List.mem_cons_of_mem _ (ih _ _ _ e)

theorem gone_mem {σ : Type} (cb : σ → Addr → σ × BitVec 32) (l : List Addr) (n : Nat) (w : σ) {x : Addr}
    (h : x ∈ gone (round cb l n w)) : x ∈ l := by
  simp only [gone, List.mem_map, List.mem_filter] at h
  obtain ⟨q, ⟨h1, -⟩, rfl⟩ := h
  exact round_mem cb l n w q h1

theorem callFrom_spec {σ : Type} {cb : σ → Addr → σ × BitVec 32} {prio : Addr → Int} {head : Addr} : ∀ (r p : List Addr) (n : Nat)
    (o : Out σ) (fuel : Nat), Holds prio head o.chain (p ++ r) → r.length < fuel → ∀ tmp, (∀ x r', r = x :: r' → tmp = r'.headD head) →
    ∃ o', callFrom cb head fuel o n (r.headD head) tmp = some o' ∧
      Holds prio head o'.chain (p ++ r.filter (· ∉ gone (round cb r n o.world))) ∧
      o'.world = after cb o.world (round cb r n o.world) ∧
      o'.called = o.called.map (· + BitVec.ofNat 32 (round cb r n o.world).length) ∧
      o'.ret = if round cb r n o.world = [] then o.ret else result (round cb r n o.world) := by
  intro r
  induction r with
  | nil =>
    intro p n o fuel h hf tmp htmp
    obtain ⟨f, rfl⟩ : ∃ f, fuel = f + 1 := ⟨fuel - 1, by simp at hf; omega⟩
    refine ⟨o, by simp [callFrom], ?_, ?_, ?_, ?_⟩
    · simpa [round, gone] using h
    · simp [round, after]
    · simp [round]
    · simp [round]
  | cons x r ih =>
    intro p n o fuel h hf tmp htmp
    obtain ⟨f, rfl⟩ : ∃ f, fuel = f + 1 := ⟨fuel - 1, by simp at hf; omega⟩
    have hnd := Ilist.holds_nodup h
    have hxh : x ≠ head := by grind
    have hxr : x ∉ r := by grind
    cases n with
    | zero =>
      refine ⟨o, by simp [callFrom], ?_, ?_, ?_, ?_⟩
      · have : (x :: r).filter (· ∉ gone (round cb (x :: r) 0 o.world)) = x :: r :=
          List.filter_eq_self.2 (fun z _ => by simp [round, gone])
        rw [this]; exact h
      · simp [round, after]
      · simp [round]
      · simp [round]
    | succ n =>
      have hv := visit_chain (cb := cb) h
      have hworld : (visit cb head x o).world = (cb o.world x).1 := rfl
      have hcalled : (visit cb head x o).called = o.called.map (· + 1) := rfl
      have hret := visit_ret cb head x o
      rw [htmp x r rfl]
      simp only [List.headD_cons, callFrom, if_neg hxh, Nat.add_one_ne_zero, if_false, hret, Nat.add_sub_cancel]
      by_cases hs : asksStop (cb o.world x).2 = true
      · rw [if_pos ((stop_bit _).2 hs)]
        have hround : round cb (x :: r) (n + 1) o.world = [(x, (cb o.world x).2)] := by simp [round, hs]
        rw [hround]
        refine ⟨_, rfl, ?_, rfl, by rw [hcalled]; rfl, ?_⟩
        · have hfil : (x :: r).filter (· ∉ gone [(x, (cb o.world x).2)]) =
              (if asksRemove (cb o.world x).2 then [] else [x]) ++ r := by
            by_cases hb : asksRemove (cb o.world x).2 = true
            · simp [gone, hb]
              intro z hz e; subst e; exact hxr hz
            · simp [gone, hb]
          rw [hfil, ← List.append_assoc]
          exact hv
        · rw [hret]; simp [result]
      · rw [if_neg (fun e => hs ((stop_bit _).1 e))]
        have hround : round cb (x :: r) (n + 1) o.world = (x, (cb o.world x).2) :: round cb r n (cb o.world x).1 := by
          simp [round, hs]
        obtain ⟨o', e', h1, h2, h3, h4⟩ := ih (p ++ (if asksRemove (cb o.world x).2 then [] else [x])) n (visit cb head x o) f hv
          (by simp at hf; omega) ((visit cb head x o).chain.nodes.next (r.headD head)) (by
            intro y r' er
            subst er
            exact holds_next (p := p ++ (if asksRemove (cb o.world x).2 then [] else [x])) hv)
        rw [hworld] at h1 h2 h3 h4
        rw [hround]
        refine ⟨o', e', ?_, ?_, ?_, ?_⟩
        · have hxg : x ∉ gone (round cb r n (cb o.world x).1) := fun e => hxr (gone_mem cb r n _ e)
          have hfil : (x :: r).filter (· ∉ gone ((x, (cb o.world x).2) :: round cb r n (cb o.world x).1)) =
              (if asksRemove (cb o.world x).2 then [] else [x]) ++ r.filter (· ∉ gone (round cb r n (cb o.world x).1)) := by
            by_cases hb : asksRemove (cb o.world x).2 = true
            · have hg : gone ((x, (cb o.world x).2) :: round cb r n (cb o.world x).1) = x :: gone (round cb r n (cb o.world x).1) := by
                simp [gone, hb]
              rw [hg, if_pos hb]
              simp only [List.mem_cons, true_or, not_true_eq_false, decide_false, List.filter_cons, List.nil_append]
              simp only [Bool.false_eq_true, if_false]
              apply List.filter_congr
              intro z hz
              have : z ≠ x := fun e => hxr (e ▸ hz)
              simp [this]
            · have hg : gone ((x, (cb o.world x).2) :: round cb r n (cb o.world x).1) = gone (round cb r n (cb o.world x).1) := by
                simp [gone, hb]
              rw [hg, if_neg hb]
              simp [List.filter_cons, hxg]
          rw [hfil, ← List.append_assoc]
          exact h1
        · rw [h2]; simp [after]
        · rw [h3, hcalled]
          cases o.called with
          | none => rfl
          | some c =>
            simp only [Option.map_some, List.length_cons, Option.some.injEq, BitVec.add_assoc]
            congr 1
            rw [Nat.add_comm, BitVec.ofNat_add]
            rfl
        · rw [h4, if_neg (List.cons_ne_nil _ _)]
          by_cases hn : round cb r n (cb o.world x).1 = []
          · rw [if_pos hn, hn, hret]; rfl
          · rw [if_neg hn]
            simp only [result]
            rw [List.getLast?_cons_of_ne_nil hn]

/-- C26: a round calls the nodes in chain order, stops after the requested number of calls or the first answer that asks to stop,
takes out of the chain exactly the nodes that asked for removal, counts its calls and returns the last answer. -/
theorem call_round {σ : Type} (cb : σ → Addr → σ × BitVec 32) {prio : Addr → Int} {head : Addr} {s : Ilist.State} {l : List Addr}
    (h : Holds prio head s l) (w : σ) (n : Nat) (called : Option (BitVec 32)) (fuel : Nat) (hf : l.length < fuel) :
    ∃ o, call cb s head w n called fuel = some o ∧
      Holds prio head o.chain (l.filter (· ∉ gone (round cb l n w))) ∧
      o.world = after cb w (round cb l n w) ∧
      o.called = called.map (· + BitVec.ofNat 32 (round cb l n w).length) ∧
      o.ret = result (round cb l n w) := by
  have h0 := holds_first h
  obtain ⟨o, e, h1, h2, h3, h4⟩ := callFrom_spec (cb := cb) (prio := prio) (head := head) l [] n ⟨s, w, called, 0⟩ fuel h hf
    (s.nodes.next (s.nodes.next head)) (by
      intro x r' er
      subst er
      rw [h0]
      exact holds_next (p := []) h)
  refine ⟨o, by simp only [call]; rw [← e, h0], h1, h2, h3, ?_⟩
  rw [h4]
  split
  · rename_i e; rw [e]; rfl
  · rfl

/-- C26: a round makes at most the requested number of calls, to the first nodes of the chain, in order; it is shorter than both the
chain and that number only if its last answer asks to stop, and no earlier answer does. -/
theorem round_shape {σ : Type} (cb : σ → Addr → σ × BitVec 32) : ∀ (l : List Addr) (n : Nat) (w : σ),
    (round cb l n w).length ≤ n ∧ (round cb l n w).map (·.1) = l.take (round cb l n w).length ∧
    (∀ q ∈ (round cb l n w).dropLast, asksStop q.2 = false) ∧
    ((round cb l n w).length < min n l.length → ∃ q, (round cb l n w).getLast? = some q ∧ asksStop q.2 = true) := by
  intro l
  induction l with
  | nil => intro n w; simp [round]
  | cons x l ih =>
    intro n w
    cases n with
    | zero => simp [round]
    | succ n =>
      obtain ⟨h1, h2, h3, h4⟩ := ih n (cb w x).1
      by_cases hs : asksStop (cb w x).2 = true
      · have e : round cb (x :: l) (n + 1) w = [(x, (cb w x).2)] := by simp [round, hs]
        rw [e]
        refine ⟨by simp, by simp, by simp, fun _ => ⟨_, rfl, hs⟩⟩
      · have e : round cb (x :: l) (n + 1) w = (x, (cb w x).2) :: round cb l n (cb w x).1 := by simp [round, hs]
        rw [e]
        refine ⟨by simp only [List.length_cons]; omega, by simp [h2], ?_, ?_⟩
        · intro q hq
          cases hr : round cb l n (cb w x).1 with
          | nil => rw [hr] at hq; simp at hq
          | cons a b =>
            rw [hr, List.dropLast_cons_of_ne_nil (by simp)] at hq
            rcases List.mem_cons.1 hq with e | e
            · rw [e]; simpa using hs
            · exact h3 q (by rw [hr]; exact e)
        · intro hlt
          simp only [List.length_cons] at hlt
          obtain ⟨q, hq, hq'⟩ := h4 (by omega)
          refine ⟨q, ?_, hq'⟩
          rw [List.getLast?_cons_of_ne_nil (by intro e; rw [e] at hq; simp at hq)]
          exact hq

theorem enter_mem {prio : Addr → Int} {x y : Addr} {l : List Addr} : y ∈ enter prio x l ↔ y = x ∨ y ∈ l := by
  rw [← place_enter]; exact Ilist.mem_place

theorem enter_sorted {prio : Addr → Int} {x : Addr} {l : List Addr} (h : l.Pairwise fun a b => prio a ≤ prio b) :
    (enter prio x l).Pairwise fun a b => prio a ≤ prio b := by
  induction l with
  | nil => simp [enter]
  | cons y l ih =>
    have h' := List.pairwise_cons.1 h
    by_cases hc : prio x ≤ prio y
    · rw [enter, if_pos hc]
      refine List.pairwise_cons.2 ⟨fun z hz => ?_, h⟩
      rcases List.mem_cons.1 hz with e | e
      · rw [e]; exact hc
      · exact Int.le_trans hc (h'.1 z e)
    · rw [enter, if_neg hc]
      refine List.pairwise_cons.2 ⟨fun z hz => ?_, ih h'.2⟩
      rcases enter_mem.1 hz with e | e
      · rw [e]; omega
      · exact h'.1 z e

theorem spec_sorted {σ : Type} {prio : Addr → Int} (cb : σ → Addr → σ × BitVec 32) {l : List Addr} (w : σ)
    (h : l.Pairwise fun a b => prio a ≤ prio b) (op : Op) : (op.spec prio cb l w).1.Pairwise fun a b => prio a ≤ prio b := by
  cases op with
  | register x e =>
    cases e with
    | true => exact enter_sorted h
    | false => exact h
  | unregister x => exact List.Pairwise.sublist List.erase_sublist h
  | call n => exact List.Pairwise.sublist List.filter_sublist h

theorem enter_length (prio : Addr → Int) (x : Addr) (l : List Addr) : (enter prio x l).length = l.length + 1 := by
  rw [← place_enter]; exact Ilist.place_length _ _ _

theorem spec_length {σ : Type} (prio : Addr → Int) (cb : σ → Addr → σ × BitVec 32) (l : List Addr) (w : σ) (op : Op) :
    (op.spec prio cb l w).1.length ≤ l.length + 1 := by
  cases op with
  | register x e =>
    cases e with
    | true => simp [Op.spec, enter_length]
    | false => simp [Op.spec]
  | unregister x => have := @List.length_erase_le _ _ x l; simp only [Op.spec]; omega
  | call n => have := List.length_filter_le (· ∉ gone (round cb l n w)) l; simp only [Op.spec]; omega

theorem op_sound {σ : Type} {prio : Addr → Int} (cb : σ → Addr → σ × BitVec 32) {head : Addr} {s : Ilist.State} {l : List Addr}
    (h : Holds prio head s l) (w : σ) (op : Op) (ok : op.Ok head l) (fuel : Nat) (hf : l.length < fuel) :
    ∃ s', op.run prio cb head fuel s w = some (s', (op.spec prio cb l w).2) ∧ Holds prio head s' (op.spec prio cb l w).1 := by
  cases op with
  | register x e =>
    cases e with
    | true =>
      obtain ⟨s', e, h'⟩ := register_sound h ok.2 ok.1 fuel hf
      exact ⟨s', by simp [Op.run, e, Op.spec], h'⟩
    | false => exact ⟨s, by simp [Op.run, register, Op.spec], h⟩
  | unregister x => exact ⟨_, rfl, unregister_sound h ok⟩
  | call n =>
    obtain ⟨o, e, h1, h2, -, -⟩ := call_round cb h w n none fuel hf
    exact ⟨o.chain, by simp [Op.run, e, Op.spec, h2], h1⟩

/-- C26: after any history of registrations, removals and rounds the chain holds exactly the nodes registered and neither
unregistered nor taken out by a round since, in ascending priority, the most recently registered first among equal priorities. -/
theorem notifier_histories {σ : Type} {prio : Addr → Int} (cb : σ → Addr → σ × BitVec 32) (head : Addr) (w : σ) (ops : List Op)
    (ok : OkAll prio cb head [] w ops) (fuel : Nat) (hf : ops.length < fuel) :
    ∃ s, runAll prio cb head fuel Ilist.fresh w ops = some (s, (specAll prio cb [] w ops).2) ∧
      Holds prio head s (specAll prio cb [] w ops).1 ∧
      Ilist.forEach s head fuel = some (specAll prio cb [] w ops).1 ∧
      (specAll prio cb [] w ops).1.Pairwise fun a b => prio a ≤ prio b := by
  have main : ∀ (ops : List Op) (s : Ilist.State) (l : List Addr) (w : σ), Holds prio head s l → OkAll prio cb head l w ops →
      l.length + ops.length < fuel → (l.Pairwise fun a b => prio a ≤ prio b) →
      ∃ s', runAll prio cb head fuel s w ops = some (s', (specAll prio cb l w ops).2) ∧
        Holds prio head s' (specAll prio cb l w ops).1 ∧ (specAll prio cb l w ops).1.length ≤ l.length + ops.length ∧
        (specAll prio cb l w ops).1.Pairwise fun a b => prio a ≤ prio b := by
    intro ops
    induction ops with
    | nil => intro s l w h _ _ hs; exact ⟨s, rfl, h, by simp [specAll], hs⟩
    | cons op ops ih =>
      intro s l w h hok hlen hs
      simp only [List.length_cons] at hlen
      obtain ⟨s1, e1, h1⟩ := op_sound cb h w op hok.1 fuel (by omega)
      have hl := spec_length prio cb l w op
      obtain ⟨s2, e2, h2, h3, h4⟩ := ih s1 _ _ h1 hok.2 (by omega) (spec_sorted cb w hs op)
      refine ⟨s2, by simp only [runAll, e1]; exact e2, h2, ?_, h4⟩
      simp only [specAll, List.length_cons]; omega
  obtain ⟨s, e, h, hl, hs⟩ := main ops Ilist.fresh [] w (Ilist.holds_fresh _ _ head) ok (by simpa using hf) List.Pairwise.nil
  exact ⟨s, e, h, Ilist.holds_each h fuel (by simp at hl; omega), hs⟩

/-- C26: a node without a callback is refused and the chain is left alone. -/
theorem register_refuses (s : Ilist.State) (head node : Addr) (prio : Addr → Int) (fuel : Nat) :
    register s head node false prio fuel = some (-22, s) := by simp [register]

/-! Four nodes, one without a callback; in the first round node 4 asks for removal and node 2 asks to stop. -/
private def p (x : Addr) : Int := if x = 4 then -1 else if x = 5 then 7 else 0
private def f (w : Nat) (x : Addr) : Nat × BitVec 32 := (w + 1, if x = 4 then 1 else if x = 2 then 2 else 0)
private def demo : List Op := [.register 2 true, .register 3 true, .register 4 true, .register 5 true, .register 6 false, .call 9]

example : specAll p f [] 0 demo = ([3, 2, 5], 3) ∧ round f [4, 3, 2, 5] 9 0 = [(4, 1), (3, 0), (2, 2)] := by decide

example : ∃ s, runAll p f 1 20 Ilist.fresh 0 demo = some (s, (specAll p f [] 0 demo).2) ∧
    Ilist.forEach s 1 20 = some [3, 2, 5] := by
  obtain ⟨s, h1, -, h3, -⟩ := notifier_histories (prio := p) f 1 0 demo
    ⟨⟨by decide, by decide⟩, ⟨by decide, by decide⟩, ⟨by decide, by decide⟩, ⟨by decide, by decide⟩, ⟨by decide, by decide⟩, trivial, trivial⟩
    20 (by decide)
  exact ⟨s, h1, h3⟩

end Bfdev.Notifier

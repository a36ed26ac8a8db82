import Verif.Notifier.Props
/-!
C118: callbacks that change the chain they are called from: `bfdev_notifier_call` of `src/notifier.c` with callbacks that register and unregister nodes before they
answer. (Callbacks that start further rounds are in `Nest`.)
-/
set_option linter.unusedSimpArgs false
set_option linter.unusedVariables false
namespace Bfdev.Notifier.Reenter
open Dlist (Addr)

/-- What a callback does to the chain: `bfdev_notifier_register`, notifier.c:53-63, of a node with or without a callback, or
`bfdev_notifier_unregister`, notifier.c:65-69. -/
inductive Act where
  | register (x : Addr) (hasEntry : Bool)
  | unregister (x : Addr)
deriving DecidableEq, Repr

/-- What a callback leaves behind: the world, its calls on the chain and its answer. -/
structure Answer (σ : Type) where
  world : σ
  acts : List Act
  ret : BitVec 32

abbrev Callback (σ : Type) := σ → Addr → Answer σ

/-- One call from within a callback, notifier.c:53-69. -/
def Act.run (prio : Addr → Int) (head : Addr) (fuel : Nat) (s : Ilist.State) : Act → Option Ilist.State
  | .register x e => (Notifier.register s head x e prio fuel).map (·.2)
  | .unregister x => some (Notifier.unregister s head x)

def runActs (prio : Addr → Int) (head : Addr) (fuel : Nat) (s : Ilist.State) : List Act → Option Ilist.State
  | [] => some s
  | a :: as => do
    let s ← a.run prio head fuel s
    runActs prio head fuel s as

/-- One callback, notifier.c:37-44, with what it does to the chain. -/
def visit {σ : Type} (prio : Addr → Int) (cb : Callback σ) (head : Addr) (fuel : Nat) (node : Addr) (o : Out σ) : Option (Out σ) := do
  let a := cb o.world node
  let s ← runActs prio head fuel o.chain a.acts
  return { chain := if a.ret &&& retRemove ≠ 0 then Ilist.del s head node else s
           world := a.world
           called := o.called.map (· + 1)
           ret := if a.ret &&& retRemove ≠ 0 then a.ret &&& ~~~retRemove else a.ret }

/-- The loop of `bfdev_notifier_call`, notifier.c:33-48: the successor of a node is read before its callback runs, and the successor of that one when it is over. -/
def callFrom {σ : Type} (prio : Addr → Int) (cb : Callback σ) (head : Addr) (deep : Nat) : Nat → Out σ → Nat → Addr → Addr → Option (Out σ)
  | 0, _, _, _, _ => none
  | fuel + 1, o, callNum, node, tmp =>
    if node = head then some o
    else if callNum = 0 then some o
    else do
      let o ← visit prio cb head deep node o
      if o.ret &&& retStop ≠ 0 then return o
      callFrom prio cb head deep fuel o (callNum - 1) tmp (o.chain.nodes.next tmp)

/-- `bfdev_notifier_call`, notifier.c:25-51. `fuel` bounds the calls of the round and the steps of a registration. -/
def call {σ : Type} (prio : Addr → Int) (cb : Callback σ) (s : Ilist.State) (head : Addr) (w : σ) (callNum : Nat) (called : Option (BitVec 32)) (fuel : Nat) :
    Option (Out σ) :=
  let node := s.nodes.next head
  callFrom prio cb head fuel fuel ⟨s, w, called, 0⟩ callNum node (s.nodes.next node)

/-! ## Specification -/

/-- What the calls of a callback do to the list of registered nodes. -/
def Act.spec (prio : Addr → Int) (l : List Addr) : Act → List Addr
  | .register x true => enter prio x l
  | .register _ false => l
  | .unregister x => l.erase x

def play (prio : Addr → Int) (l : List Addr) (as : List Act) : List Addr := as.foldl (Act.spec prio) l

/-- The chain when the callback of `x` is over and `x` taken out if it asked for that. -/
def left {σ : Type} (prio : Addr → Int) (a : Answer σ) (x : Addr) (l : List Addr) : List Addr :=
  if asksRemove a.ret then (play prio l a.acts).erase x else play prio l a.acts

/-- The node behind `x`. -/
def behind (x : Addr) : List Addr → Option Addr
  | [] => none
  | y :: l => if y = x then l.head? else behind x l

/-- A round that has `n` calls left and is to call `t` next, the chain being `l`: the calls with their answers, the chain and the world in the end. After `x`
comes the node that stood behind `x` when it was called. -/
def round {σ : Type} (prio : Addr → Int) (cb : Callback σ) : Nat → List Addr → σ → Option Addr → List (Addr × BitVec 32) × List Addr × σ
  | _, l, w, none => ([], l, w)
  | 0, l, w, some _ => ([], l, w)
  | n + 1, l, w, some x =>
    let a := cb w x
    if asksStop a.ret then ([(x, a.ret)], left prio a x l, a.world)
    else
      let r := round prio cb n (left prio a x l) a.world (behind x l)
      ((x, a.ret) :: r.1, r.2)

/-- A callback registers only nodes that are not registered. -/
def ActsOk (prio : Addr → Int) (head : Addr) : List Addr → List Act → Prop
  | _, [] => True
  | l, .register x e :: as => (e = true → x ≠ head ∧ x ∉ l) ∧ ActsOk prio head (Act.spec prio l (.register x e)) as
  | l, .unregister x :: as => x ≠ head ∧ ActsOk prio head (l.erase x) as

/-- The guard: in every callback of the round, what it registers was not registered, and when it is over the node that stood behind it is still registered,
unless the round ends there. -/
def Behaves {σ : Type} (prio : Addr → Int) (cb : Callback σ) (head : Addr) : Nat → List Addr → σ → Option Addr → Prop
  | _, _, _, none => True
  | 0, _, _, some _ => True
  | n + 1, l, w, some x =>
    let a := cb w x
    ActsOk prio head l a.acts ∧ (asksStop a.ret = false →
      (n ≠ 0 → ∀ y, behind x l = some y → y ∈ left prio a x l) ∧ Behaves prio cb head n (left prio a x l) a.world (behind x l))

/-! ## Proofs -/

theorem enter_le (prio : Addr → Int) (l : List Addr) (a : Act) : (a.spec prio l).length ≤ l.length + 1 := by
  cases a with
  | register x e =>
    cases e with
    | true => simp [Act.spec, enter_length]
    | false => simp [Act.spec]
  | unregister x => have := @List.length_erase_le _ _ x l; simp only [Act.spec]; omega

theorem runActs_sound {prio : Addr → Int} {head : Addr} {fuel : Nat} : ∀ (as : List Act) {s : Ilist.State} {l : List Addr}, Holds prio head s l → ActsOk prio head l as →
    l.length + as.length < fuel → ∃ s', runActs prio head fuel s as = some s' ∧ Holds prio head s' (play prio l as)
  | [], s, l, h, _, _ => ⟨s, rfl, h⟩
  | a :: as, s, l, h, ok, hf => by
    simp only [List.length_cons] at hf
    have hl := enter_le prio l a
    have key : ∃ s', a.run prio head fuel s = some s' ∧ Holds prio head s' (a.spec prio l) ∧ ActsOk prio head (a.spec prio l) as := by
      cases a with
      | register x e =>
        cases e with
        | true =>
          obtain ⟨s', e, h'⟩ := register_sound h (ok.1 rfl).2 (ok.1 rfl).1 fuel (by omega)
          exact ⟨s', by simp [Act.run, e], h', ok.2⟩
        | false => exact ⟨s, by simp [Act.run, register], h, ok.2⟩
      | unregister x => exact ⟨_, rfl, unregister_sound h ok.1, ok.2⟩
    obtain ⟨s1, e1, h1, ok1⟩ := key
    obtain ⟨s', e', h'⟩ := runActs_sound (fuel := fuel) as h1 ok1 (show (a.spec prio l).length + as.length < fuel by omega)
    exact ⟨s', by simp only [runActs, e1, Option.bind_eq_bind, Option.bind_some]; exact e', h'⟩

theorem visit_sound {σ : Type} {prio : Addr → Int} {cb : Callback σ} {head x : Addr} {o : Out σ} {l : List Addr} {fuel : Nat} (h : Holds prio head o.chain l) (hx : x ≠ head)
    (ok : ActsOk prio head l (cb o.world x).acts) (hf : l.length + (cb o.world x).acts.length < fuel) :
    ∃ o', visit prio cb head fuel x o = some o' ∧ Holds prio head o'.chain (left prio (cb o.world x) x l) ∧ o'.world = (cb o.world x).world ∧
      o'.called = o.called.map (· + 1) ∧ o'.ret = (cb o.world x).ret &&& ~~~1 := by
  obtain ⟨s', e, h'⟩ := runActs_sound _ h ok hf
  simp only [visit, e, Option.bind_eq_bind, Option.bind_some]
  refine ⟨_, rfl, ?_, rfl, rfl, ?_⟩
  · simp only [left, and_one]
    split
    · exact unregister_sound h' hx
    · exact h'
  · show (if _ then _ else _) = _
    split
    · rfl
    · rename_i hn; exact (keep_remove _ hn).symm

theorem behind_split {x : Addr} : ∀ {p r : List Addr}, x ∉ p → behind x (p ++ x :: r) = r.head?
  | [], r, _ => by simp [behind]
  | y :: p, r, h => by
    have h1 : y ≠ x := fun e => h (by simp [e])
    have h2 : x ∉ p := fun e => h (by simp [e])
    simp only [List.cons_append, behind, if_neg h1]
    exact behind_split h2

theorem behind_mem {x y : Addr} : ∀ {l : List Addr}, behind x l = some y → y ∈ l
  | [], h => by simp [behind] at h
  | z :: l, h => by
    simp only [behind] at h
    split at h
    · cases l with
      | nil => simp at h
      | cons a l => simp at h; simp [h]
    · exact List.mem_cons_of_mem _ (behind_mem h)

theorem holds_behind {prio : Addr → Int} {head x : Addr} {s : Ilist.State} {l : List Addr} (h : Holds prio head s l) (hx : x ∈ l) :
    s.nodes.next x = (behind x l).getD head ∧ x ≠ head := by
  have hnd := Ilist.holds_nodup h
  obtain ⟨p, r, rfl⟩ := List.append_of_mem hx
  have hxp : x ∉ p := by grind
  rw [behind_split hxp, holds_next h]
  refine ⟨by cases r <;> rfl, by grind⟩

theorem callFrom_sound {σ : Type} {prio : Addr → Int} {cb : Callback σ} {head : Addr} : ∀ (n : Nat) (l : List Addr) (w : σ) (t : Option Addr),
    Behaves prio cb head n l w t → ∃ D, ∀ (deep fuel : Nat) (o : Out σ) (tmp : Addr), D ≤ deep → n < fuel → Holds prio head o.chain l → o.world = w →
      (∀ x, t = some x → x ≠ head ∧ (n ≠ 0 → x ∈ l ∧ tmp = (behind x l).getD head)) →
      ∃ o', callFrom prio cb head deep fuel o n (t.getD head) tmp = some o' ∧ Holds prio head o'.chain (round prio cb n l w t).2.1 ∧ o'.world = (round prio cb n l w t).2.2 ∧
        o'.called = o.called.map (· + BitVec.ofNat 32 (round prio cb n l w t).1.length) ∧
        o'.ret = if (round prio cb n l w t).1 = [] then o.ret else result (round prio cb n l w t).1
  | n, l, w, none, _ => ⟨0, fun deep fuel o tmp _ hf h hw _ => by
      obtain ⟨f, rfl⟩ : ∃ f, fuel = f + 1 := ⟨fuel - 1, by omega⟩
      refine ⟨o, by simp [callFrom], ?_, ?_, ?_, ?_⟩
      · simpa [round] using h
      · simpa [round] using hw
      · simp [round]
      · simp [round]⟩
  | 0, l, w, some x, _ => ⟨0, fun deep fuel o tmp _ hf h hw ht => by
      obtain ⟨f, rfl⟩ : ∃ f, fuel = f + 1 := ⟨fuel - 1, by omega⟩
      refine ⟨o, by simp [callFrom], ?_, ?_, ?_, ?_⟩
      · simpa [round] using h
      · simpa [round] using hw
      · simp [round]
      · simp [round]⟩
  | n + 1, l, w, some x, hb => by
    have hacts := hb.1
    have hrest := hb.2
    by_cases hs : asksStop (cb w x).ret = true
    · refine ⟨l.length + (cb w x).acts.length + 1, fun deep fuel o tmp hd hf h hw ht => ?_⟩
      obtain ⟨f, rfl⟩ : ∃ f, fuel = f + 1 := ⟨fuel - 1, by omega⟩
      subst hw
      obtain ⟨hxh, _⟩ := ht x rfl
      obtain ⟨o1, e1, h1, h2, h3, h4⟩ := visit_sound h hxh hacts (show _ < deep by omega)
      simp only [Option.getD_some, callFrom, if_neg hxh, Nat.add_one_ne_zero, if_false, e1, Option.bind_eq_bind, Option.bind_some, h4]
      rw [if_pos ((stop_bit _).2 hs)]
      have hr : round prio cb (n + 1) l o.world (some x) = ([(x, (cb o.world x).ret)], left prio (cb o.world x) x l, (cb o.world x).world) := by
        simp [round, hs]
      rw [hr]
      refine ⟨o1, rfl, h1, h2, by rw [h3]; rfl, ?_⟩
      rw [h4]; simp [result]
    · have hs' : asksStop (cb w x).ret = false := by simpa using hs
      obtain ⟨hy, hb2⟩ := hrest hs'
      obtain ⟨D, ih⟩ := callFrom_sound n (left prio (cb w x) x l) (cb w x).world (behind x l) hb2
      refine ⟨max D (l.length + (cb w x).acts.length + 1), fun deep fuel o tmp hd hf h hw ht => ?_⟩
      obtain ⟨f, rfl⟩ : ∃ f, fuel = f + 1 := ⟨fuel - 1, by omega⟩
      subst hw
      obtain ⟨hxh, ht'⟩ := ht x rfl
      obtain ⟨hxl, htmp⟩ := ht' (by omega)
      obtain ⟨o1, e1, h1, h2, h3, h4⟩ := visit_sound h hxh hacts (show _ < deep by omega)
      simp only [Option.getD_some, callFrom, if_neg hxh, Nat.add_one_ne_zero, if_false, e1, Option.bind_eq_bind, Option.bind_some, h4, Nat.add_sub_cancel]
      rw [if_neg (fun e => hs ((stop_bit _).1 e)), htmp]
      obtain ⟨o', e', q1, q2, q3, q4⟩ := ih deep f o1 (o1.chain.nodes.next ((behind x l).getD head)) (by omega) (by omega) h1 h2 (by
        intro y hyb
        have hyl := behind_mem hyb
        refine ⟨(holds_behind h hyl).2, fun hn => ⟨hy hn y hyb, ?_⟩⟩
        rw [hyb]
        exact (holds_behind h1 (hy hn y hyb)).1)
      have hr : round prio cb (n + 1) l o.world (some x) = ((x, (cb o.world x).ret) :: (round prio cb n (left prio (cb o.world x) x l) (cb o.world x).world (behind x l)).1,
          (round prio cb n (left prio (cb o.world x) x l) (cb o.world x).world (behind x l)).2) := by
        simp [round, hs']
      rw [hr]
      refine ⟨o', e', q1, q2, ?_, ?_⟩
      · rw [q3, h3]
        cases o.called with
        | none => rfl
        | some c =>
          simp only [Option.map_some, List.length_cons, Option.some.injEq, BitVec.add_assoc]
          congr 1
          rw [Nat.add_comm, BitVec.ofNat_add]
          rfl
      · rw [q4, if_neg (List.cons_ne_nil _ _)]
        by_cases hn : (round prio cb n (left prio (cb o.world x) x l) (cb o.world x).world (behind x l)).1 = []
        · rw [if_pos hn, hn, h4]; rfl
        · rw [if_neg hn]
          simp only [result]
          rw [List.getLast?_cons_of_ne_nil hn]

/-- **C118, partial.** Callbacks may change the chain they are called from: they may register any nodes that are not registered and unregister any but the one
behind them. The round ends; it calls, after each node, the one that stood behind it; the chain then holds exactly the nodes registered and not unregistered or removed since,
in order of priority; the calls are counted and the last answer is returned. Missing: callbacks that unregister the node behind them, see `next_unregistered_violated`. -/
theorem reentrant_round_partial {σ : Type} {prio : Addr → Int} (cb : Callback σ) {head : Addr} {s : Ilist.State} {l : List Addr} (h : Holds prio head s l) (w : σ) (n : Nat)
    (hb : Behaves prio cb head n l w l.head?) (called : Option (BitVec 32)) :
    ∃ D, ∀ fuel, D ≤ fuel → ∃ o, call prio cb s head w n called fuel = some o ∧ Holds prio head o.chain (round prio cb n l w l.head?).2.1 ∧
      o.world = (round prio cb n l w l.head?).2.2 ∧ o.called = called.map (· + BitVec.ofNat 32 (round prio cb n l w l.head?).1.length) ∧
      o.ret = result (round prio cb n l w l.head?).1 := by
  obtain ⟨D, hD⟩ := callFrom_sound n l w l.head? hb
  refine ⟨max D (n + 1), fun fuel hf => ?_⟩
  have h0 : s.nodes.next head = l.head?.getD head := by rw [holds_first h]; cases l <;> rfl
  obtain ⟨o, e, q1, q2, q3, q4⟩ := hD fuel fuel ⟨s, w, called, 0⟩ (s.nodes.next (s.nodes.next head)) (by omega) (by omega) h rfl (by
    intro x hx
    have hxl : x ∈ l := List.mem_of_mem_head? hx
    refine ⟨(holds_behind h hxl).2, fun _ => ⟨hxl, ?_⟩⟩
    rw [h0, hx]
    exact (holds_behind h hxl).1)
  refine ⟨o, by simp only [call]; rw [← e, h0], q1, q2, q3, ?_⟩
  rw [q4]
  split
  · rename_i e; rw [e]; rfl
  · rfl

/-- No more calls are made than asked for. -/
theorem round_calls {σ : Type} {prio : Addr → Int} (cb : Callback σ) : ∀ (n : Nat) (l : List Addr) (w : σ) (t : Option Addr), (round prio cb n l w t).1.length ≤ n
  | n, l, w, none => by simp [round]
  | 0, l, w, some x => by simp [round]
  | n + 1, l, w, some x => by
    simp only [round]
    split
    · simp
    · have := round_calls (prio := prio) cb n (left prio (cb w x) x l) (cb w x).world (behind x l)
      simp only [List.length_cons]; omega

/-- The calls of a round, each with the nodes registered at the time. -/
def moments {σ : Type} (prio : Addr → Int) (cb : Callback σ) : Nat → List Addr → σ → Option Addr → List (Addr × List Addr)
  | _, _, _, none => []
  | 0, _, _, some _ => []
  | n + 1, l, w, some x =>
    let a := cb w x
    (x, l) :: if asksStop a.ret then [] else moments prio cb n (left prio a x l) a.world (behind x l)

theorem moments_round {σ : Type} {prio : Addr → Int} (cb : Callback σ) : ∀ (n : Nat) (l : List Addr) (w : σ) (t : Option Addr),
    (moments prio cb n l w t).map (·.1) = (round prio cb n l w t).1.map (·.1)
  | n, l, w, none => by simp [round, moments]
  | 0, l, w, some x => by simp [round, moments]
  | n + 1, l, w, some x => by
    simp only [round, moments]
    split
    · simp
    · simp only [List.map_cons, moments_round cb n (left prio (cb w x) x l) (cb w x).world (behind x l)]

/-- Only nodes are called that are registered at the time. -/
theorem calls_registered {σ : Type} {prio : Addr → Int} (cb : Callback σ) {head : Addr} : ∀ (n : Nat) (l : List Addr) (w : σ) (t : Option Addr), Behaves prio cb head n l w t →
    (n ≠ 0 → ∀ x, t = some x → x ∈ l) → ∀ m ∈ moments prio cb n l w t, m.1 ∈ m.2
  | n, l, w, none, _, _ => by simp [moments]
  | 0, l, w, some x, _, _ => by simp [moments]
  | n + 1, l, w, some x, hb, ht => by
    simp only [moments, List.mem_cons]
    rintro m (rfl | hm)
    · exact ht (by omega) x rfl
    · split at hm
      · simp at hm
      · rename_i hs
        obtain ⟨h1, h2⟩ := hb.2 (by simpa using hs)
        exact calls_registered cb n _ _ _ h2 h1 m hm

theorem play_sorted {prio : Addr → Int} : ∀ (as : List Act) {l : List Addr}, (l.Pairwise fun a b => prio a ≤ prio b) → (play prio l as).Pairwise fun a b => prio a ≤ prio b
  | [], l, h => h
  | a :: as, l, h => by
    refine play_sorted as ?_
    cases a with
    | register x e =>
      cases e with
      | true => exact enter_sorted h
      | false => exact h
    | unregister x => exact List.Pairwise.sublist List.erase_sublist h

/-- The chain stays in order of priority. -/
theorem round_sorted {σ : Type} {prio : Addr → Int} (cb : Callback σ) : ∀ (n : Nat) (l : List Addr) (w : σ) (t : Option Addr), (l.Pairwise fun a b => prio a ≤ prio b) →
    (round prio cb n l w t).2.1.Pairwise fun a b => prio a ≤ prio b
  | n, l, w, none, h => by simpa [round] using h
  | 0, l, w, some x, h => by simpa [round] using h
  | n + 1, l, w, some x, h => by
    have hl : (left prio (cb w x) x l).Pairwise fun a b => prio a ≤ prio b := by
      unfold left; split
      · exact List.Pairwise.sublist List.erase_sublist (play_sorted _ h)
      · exact play_sorted _ h
    simp only [round]
    split
    · exact hl
    · exact round_sorted cb n _ _ _ hl

/-- Callbacks that at most unregister their own node behave, whatever they answer: a callback may take itself out of the chain with either means, or with both. -/
theorem self_removal_behaves {σ : Type} {prio : Addr → Int} (cb : Callback σ) {head : Addr} (hcb : ∀ w x a, a ∈ (cb w x).acts → a = .unregister x) :
    ∀ (n : Nat) (l : List Addr) (w : σ) (t : Option Addr), l.Nodup → head ∉ l → (∀ x, t = some x → x ∈ l) → Behaves prio cb head n l w t
  | n, l, w, none, _, _, _ => by simp [Behaves]
  | 0, l, w, some x, _, _, _ => trivial
  | n + 1, l, w, some x, hnd, hh, ht => by
    have hx := ht x rfl
    have hxh : x ≠ head := fun e => hh (e ▸ hx)
    have hplay : ∀ (as : List Act) (m : List Addr), (∀ a ∈ as, a = .unregister x) → ActsOk prio head m as ∧ List.Sublist (play prio m as) m ∧ ∀ y ∈ m, y ≠ x → y ∈ play prio m as := by
      intro as
      induction as with
      | nil => intro m _; exact ⟨trivial, List.Sublist.refl _, fun y hy _ => hy⟩
      | cons a as ih =>
        intro m ha
        have := ha a (by simp)
        subst this
        obtain ⟨i1, i2, i3⟩ := ih (m.erase x) (fun b hb => ha b (by simp [hb]))
        exact ⟨⟨hxh, i1⟩, i2.trans List.erase_sublist, fun y hy hne => i3 y ((List.mem_erase_of_ne hne).2 hy) hne⟩
    obtain ⟨p1, p2, p3⟩ := hplay _ l (hcb w x)
    have hsub : List.Sublist (left prio (cb w x) x l) l := by
      unfold left; split
      · exact List.erase_sublist.trans p2
      · exact p2
    have hkeep : ∀ y ∈ l, y ≠ x → y ∈ left prio (cb w x) x l := by
      intro y hy hne
      unfold left; split
      · exact (List.mem_erase_of_ne hne).2 (p3 y hy hne)
      · exact p3 y hy hne
    have hbh : ∀ y, behind x l = some y → y ∈ left prio (cb w x) x l := by
      intro y hy
      refine hkeep y (behind_mem hy) ?_
      obtain ⟨p, r, rfl⟩ := List.append_of_mem hx
      have hxp : x ∉ p := by grind
      rw [behind_split hxp] at hy
      have := List.mem_of_mem_head? hy
      grind
    refine ⟨p1, fun _ => ⟨fun _ => hbh, ?_⟩⟩
    exact self_removal_behaves cb hcb n _ _ _ (hnd.sublist hsub) (fun e => hh (hsub.subset e)) hbh

/-- With callbacks that leave the chain alone this is the round of C26. -/
theorem visit_plain {σ : Type} (prio : Addr → Int) (cb : σ → Addr → σ × BitVec 32) (head : Addr) (deep : Nat) (x : Addr) (o : Out σ) :
    visit prio (fun w x => ⟨(cb w x).1, [], (cb w x).2⟩) head deep x o = some (Notifier.visit cb head x o) := rfl

theorem call_plain {σ : Type} (prio : Addr → Int) (cb : σ → Addr → σ × BitVec 32) (s : Ilist.State) (head : Addr) (w : σ) (n : Nat) (called : Option (BitVec 32)) (fuel : Nat) :
    call prio (fun w x => ⟨(cb w x).1, [], (cb w x).2⟩) s head w n called fuel = Notifier.call cb s head w n called fuel := by
  have main : ∀ (deep fuel : Nat) (o : Out σ) (n : Nat) (node tmp : Addr),
      callFrom prio (fun w x => ⟨(cb w x).1, [], (cb w x).2⟩) head deep fuel o n node tmp = Notifier.callFrom cb head fuel o n node tmp := by
    intro deep fuel
    induction fuel with
    | zero => intros; rfl
    | succ fuel ih =>
      intro o n node tmp
      simp only [callFrom, Notifier.callFrom, visit_plain, Option.bind_eq_bind, Option.bind_some, ih]
      rfl
  exact main _ _ _ _ _ _

/-! ## What goes wrong -/

/-- A node off the chain whose links lead to itself is called until the round has made all its calls. -/
theorem stuck {σ : Type} {prio : Addr → Int} {cb : Callback σ} {head y : Addr} (hy : y ≠ head) (hcb : ∀ w, (cb w y).acts = [] ∧ (cb w y).ret = 0) (deep : Nat) :
    ∀ (n fuel : Nat) (o : Out σ), n < fuel → o.chain.nodes.next y = y →
      ∃ o', callFrom prio cb head deep fuel o n y y = some o' ∧ o'.world = (List.replicate n ()).foldl (fun w _ => (cb w y).world) o.world ∧ o'.chain = o.chain
  | 0, fuel, o, hf, _ => by
    obtain ⟨f, rfl⟩ : ∃ f, fuel = f + 1 := ⟨fuel - 1, by omega⟩
    exact ⟨o, by simp [callFrom], rfl, rfl⟩
  | n + 1, fuel, o, hf, hn => by
    obtain ⟨f, rfl⟩ : ∃ f, fuel = f + 1 := ⟨fuel - 1, by omega⟩
    have hv : visit prio cb head deep y o = some ⟨o.chain, (cb o.world y).world, o.called.map (· + 1), 0⟩ := by
      simp only [visit, (hcb o.world).1, (hcb o.world).2, runActs, Option.bind_eq_bind, Option.bind_some]
      rfl
    obtain ⟨o', e', w', c'⟩ := stuck hy hcb deep n f ⟨o.chain, (cb o.world y).world, o.called.map (· + 1), 0⟩ (by omega) hn
    refine ⟨o', ?_, by rw [w', List.replicate_succ]; rfl, c'⟩
    simp only [callFrom, if_neg hy, Nat.add_one_ne_zero, if_false, hv, Option.bind_eq_bind, Option.bind_some, Nat.add_sub_cancel]
    rw [if_neg (by decide)]
    rw [show o.chain.nodes.next y = y from hn]
    exact e'

/-- Nodes 1 and 2 are registered; the callback of 1 unregisters 2. The world is the list of calls. -/
def exPrio (x : Addr) : Int := x
def exCb : Callback (List Addr) := fun w x => ⟨w ++ [x], if x = 1 then [.unregister 2] else [], 0⟩
def exChain (ops : List Act) : Option Ilist.State := runActs exPrio 9 9 Ilist.fresh ops

/-- **C118 fails** if a callback unregisters the node behind it: that node is called all the same, although it is no longer registered, and, as its links now lead to itself, again and
again, as many times as the caller allows. -/
theorem next_unregistered_violated : ∃ s, exChain [.register 1 true, .register 2 true] = some s ∧ Holds exPrio 9 s [1, 2] ∧
    ∀ n fuel, n + 9 < fuel → ∃ o, call exPrio exCb s 9 [] (n + 1) none fuel = some o ∧ o.world = 1 :: List.replicate n 2 ∧ Holds exPrio 9 o.chain [1] := by
  obtain ⟨s, e, h⟩ := runActs_sound (prio := exPrio) (head := 9) (fuel := 9) [.register 1 true, .register 2 true] (Ilist.holds_fresh _ _ 9)
    (by simp [ActsOk]; decide) (by decide)
  have h : Holds exPrio 9 s [1, 2] := h
  refine ⟨s, e, h, fun n fuel hf => ?_⟩
  have n9 : s.nodes.next 9 = 1 := holds_first h
  have n1 : s.nodes.next 1 = 2 := holds_next (p := []) (r := [2]) h
  have hu : Holds exPrio 9 (unregister s 9 2) [1] := unregister_sound h (by decide)
  have n2 : (unregister s 9 2).nodes.next 2 = 2 := by
    obtain ⟨gs, hg, hgs⟩ := hu
    obtain ⟨h1, _⟩ := hg.out 2 (by decide) (by rw [hgs]; decide)
    exact h1.1
  obtain ⟨f, rfl⟩ : ∃ f, fuel = f + 1 := ⟨fuel - 1, by omega⟩
  have hv : visit exPrio exCb 9 (f + 1) 1 ⟨s, [], none, 0⟩ = some ⟨unregister s 9 2, [1], none, 0⟩ := by
    simp [visit, exCb, runActs, Act.run, retRemove]
  obtain ⟨o', e', w', c'⟩ := stuck (prio := exPrio) (cb := exCb) (head := 9) (y := 2) (by decide) (fun w => ⟨rfl, rfl⟩) (f + 1) n f ⟨unregister s 9 2, [1], none, 0⟩ (by omega) n2
  refine ⟨o', ?_, ?_, by rw [c']; exact hu⟩
  · simp only [call, n9, n1, callFrom, show ((1 : Nat) = 9) = False by simp, Nat.add_one_ne_zero, if_false, hv, Option.bind_eq_bind, Option.bind_some, Nat.add_sub_cancel, n2]
    rw [if_neg (by decide)]
    exact e'
  · rw [w']
    have : ∀ (k : Nat) (w : List Addr), (List.replicate k ()).foldl (fun w _ => (exCb w 2).world) w = w ++ List.replicate k 2 := by
      intro k
      induction k with
      | zero => intro w; simp
      | succ k ih => intro w; rw [List.replicate_succ, List.foldl_cons, ih]; simp [exCb, List.replicate_succ]
    rw [this]; rfl

/-- A callback that registers node 3 behind node 2 and takes itself out: 2 is called and then 3. -/
def okCb : Callback (List Addr) := fun w x => ⟨w ++ [x], if x = 1 then [.register 3 true, .unregister 1, .register 0 true] else [], if x = 1 then 1 else 0⟩

example : Behaves exPrio okCb 9 5 [1, 2] [] (some 1) := by
  simp [Behaves, ActsOk, okCb, left, play, Act.spec, enter, exPrio, behind, asksStop, asksRemove]
example : round exPrio okCb 5 [1, 2] [] (some 1) = ([(1, 1), (2, 0), (3, 0)], [0, 2, 3], [1, 2, 3]) := by decide +kernel
example : ((exChain [.register 1 true, .register 2 true]).bind fun s => call exPrio okCb s 9 [] 5 (some 0) 20).map (fun o => (o.world, o.called, Ilist.forEach o.chain 9 9)) =
    some ([1, 2, 3], some 3, some [0, 2, 3]) := by decide +kernel

end Bfdev.Notifier.Reenter

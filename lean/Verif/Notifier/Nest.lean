import Verif.Notifier.Reenter
/-!
C118: callbacks that also start further rounds on the chain they are called from. A callback is a program: it registers and unregisters nodes, starts rounds, sees what
they return, goes on accordingly and answers in the end. Rounds may nest to any depth.
-/
set_option linter.unusedSimpArgs false
set_option linter.unusedVariables false
namespace Bfdev.Notifier.Nest
open Dlist (Addr)
open Reenter (Act)

/-- What a callback does: it answers; or calls `bfdev_notifier_register` or `bfdev_notifier_unregister`, notifier.c:53-69, and goes on; or calls `bfdev_notifier_call`,
notifier.c:25-51, for at most `n` calls, with or without a counter, and goes on with the world that round leaves, the counter and the answer. -/
inductive Prog (σ : Type) where
  | done (w : σ) (ret : BitVec 32)
  | act (a : Act) (next : Prog σ)
  | notify (w : σ) (n : Nat) (called : Option (BitVec 32)) (next : σ → Option (BitVec 32) → BitVec 32 → Prog σ)

abbrev Callback (σ : Type) := σ → Addr → Prog σ

/-- A callback at work; `inner` is the call of `bfdev_notifier_call` from within it, notifier.c:37. -/
def runProg {σ : Type} (inner : Ilist.State → σ → Nat → Option (BitVec 32) → Option (Out σ)) (prio : Addr → Int) (head : Addr) (deep : Nat) :
    Prog σ → Ilist.State → Option (Ilist.State × σ × BitVec 32)
  | .done w r, s => some (s, w, r)
  | .act a k, s => do
    let s ← a.run prio head deep s
    runProg inner prio head deep k s
  | .notify w n c k, s => do
    let o ← inner s w n c
    runProg inner prio head deep (k o.world o.called o.ret) o.chain

/-- One callback, notifier.c:37-44. -/
def visit {σ : Type} (inner : Ilist.State → σ → Nat → Option (BitVec 32) → Option (Out σ)) (prio : Addr → Int) (cb : Callback σ) (head : Addr) (deep : Nat) (node : Addr)
    (o : Out σ) : Option (Out σ) := do
  let (s, w, r) ← runProg inner prio head deep (cb o.world node) o.chain
  return { chain := if r &&& retRemove ≠ 0 then Ilist.del s head node else s
           world := w
           called := o.called.map (· + 1)
           ret := if r &&& retRemove ≠ 0 then r &&& ~~~retRemove else r }

/-- The loop of `bfdev_notifier_call`, notifier.c:33-48. -/
def callFrom {σ : Type} (inner : Ilist.State → σ → Nat → Option (BitVec 32) → Option (Out σ)) (prio : Addr → Int) (cb : Callback σ) (head : Addr) (deep : Nat) :
    Nat → Out σ → Nat → Addr → Addr → Option (Out σ)
  | 0, _, _, _, _ => none
  | fuel + 1, o, callNum, node, tmp =>
    if node = head then some o
    else if callNum = 0 then some o
    else do
      let o ← visit inner prio cb head deep node o
      if o.ret &&& retStop ≠ 0 then return o
      callFrom inner prio cb head deep fuel o (callNum - 1) tmp (o.chain.nodes.next tmp)

/-- `bfdev_notifier_call`, notifier.c:25-51, with rounds nested less deep than the first number. The second bounds the calls of each round and the steps of a registration. -/
def call {σ : Type} (prio : Addr → Int) (cb : Callback σ) (head : Addr) : Nat → Nat → Ilist.State → σ → Nat → Option (BitVec 32) → Option (Out σ)
  | 0, _, _, _, _, _ => none
  | depth + 1, deep, s, w, callNum, called =>
    let node := s.nodes.next head
    callFrom (call prio cb head depth deep) prio cb head deep deep ⟨s, w, called, 0⟩ callNum node (s.nodes.next node)

/-! ## Specification -/

/-- The chain when the callback of `x` is over, left `l` behind and answered `r`. -/
def gone (r : BitVec 32) (x : Addr) (l : List Addr) : List Addr := if asksRemove r then l.erase x else l

/-- A callback registers only nodes that are not registered and never the head. -/
def ActOk (head : Addr) (l : List Addr) : Act → Prop
  | .register x e => e = true → x ≠ head ∧ x ∉ l
  | .unregister x => x ≠ head

mutual
/-- `Does p l l' w r`: the callback that has `p` left to do, the chain being `l`, ends, leaves the chain `l'` and the world `w` behind and answers `r`. -/
inductive Does {σ : Type} (prio : Addr → Int) (cb : Callback σ) (head : Addr) : Prog σ → List Addr → List Addr → σ → BitVec 32 → Prop
  | done {w : σ} {r : BitVec 32} {l : List Addr} : Does prio cb head (.done w r) l l w r
  | act {a : Act} {k : Prog σ} {l l' : List Addr} {w : σ} {r : BitVec 32} (ok : ActOk head l a) (rest : Does prio cb head k (a.spec prio l) l' w r) :
      Does prio cb head (.act a k) l l' w r
  | notify {w w1 w' : σ} {n : Nat} {c : Option (BitVec 32)} {k : σ → Option (BitVec 32) → BitVec 32 → Prog σ} {l l1 l' : List Addr} {calls : List (Addr × BitVec 32)}
      {r : BitVec 32} (nested : Round prio cb head n l w l.head? calls l1 w1)
      (rest : Does prio cb head (k w1 (c.map (· + BitVec.ofNat 32 calls.length)) (result calls)) l1 l' w' r) :
      Does prio cb head (.notify w n c k) l l' w' r

/-- `Round n l w t calls l' w'`: a round that has `n` calls left and is to call `t` next, the chain being `l` and the world `w`, ends after these calls with these answers and leaves
`l'` and `w'` behind. After `x` comes the node that stood behind `x` when it was called; that node is still registered when the callback of `x`, with all the rounds it started, is over,
unless the round ends there. -/
inductive Round {σ : Type} (prio : Addr → Int) (cb : Callback σ) (head : Addr) : Nat → List Addr → σ → Option Addr → List (Addr × BitVec 32) → List Addr → σ → Prop
  | over {n : Nat} {l : List Addr} {w : σ} : Round prio cb head n l w none [] l w
  | limit {l : List Addr} {w : σ} {x : Addr} : Round prio cb head 0 l w (some x) [] l w
  | stop {n : Nat} {l l1 : List Addr} {w w1 : σ} {x : Addr} {r : BitVec 32} (does : Does prio cb head (cb w x) l l1 w1 r) (hs : asksStop r = true) :
      Round prio cb head (n + 1) l w (some x) [(x, r)] (gone r x l1) w1
  | more {n : Nat} {l l1 l' : List Addr} {w w1 w' : σ} {x : Addr} {r : BitVec 32} {calls : List (Addr × BitVec 32)} (does : Does prio cb head (cb w x) l l1 w1 r)
      (hs : asksStop r = false) (hb : n ≠ 0 → ∀ y, Reenter.behind x l = some y → y ∈ gone r x l1)
      (rest : Round prio cb head n (gone r x l1) w1 (Reenter.behind x l) calls l' w') :
      Round prio cb head (n + 1) l w (some x) ((x, r) :: calls) l' w'
end

/-! ## Proofs -/

theorem act_sound {prio : Addr → Int} {head : Addr} {deep : Nat} {s : Ilist.State} {l : List Addr} {a : Act} (h : Holds prio head s l) (ok : ActOk head l a) (hd : l.length + 1 < deep) :
    ∃ s', a.run prio head deep s = some s' ∧ Holds prio head s' (a.spec prio l) := by
  cases a with
  | register x e =>
    cases e with
    | true =>
      obtain ⟨s', e, h'⟩ := register_sound h (ok rfl).2 (ok rfl).1 deep (by omega)
      exact ⟨s', by simp [Act.run, e], h'⟩
    | false => exact ⟨s, by simp [Act.run, register], h⟩
  | unregister x => exact ⟨_, rfl, unregister_sound h ok⟩

theorem gone_sound {σ : Type} {prio : Addr → Int} {cb : Callback σ} {head x : Addr} {inner : Ilist.State → σ → Nat → Option (BitVec 32) → Option (Out σ)} {deep : Nat} {o : Out σ}
    {s' : Ilist.State} {l1 : List Addr} {w1 : σ} {r : BitVec 32} (e : runProg inner prio head deep (cb o.world x) o.chain = some (s', w1, r)) (h : Holds prio head s' l1) (hx : x ≠ head) :
    ∃ o', visit inner prio cb head deep x o = some o' ∧ Holds prio head o'.chain (gone r x l1) ∧ o'.world = w1 ∧ o'.called = o.called.map (· + 1) ∧ o'.ret = r &&& ~~~1 := by
  simp only [visit, e, Option.bind_eq_bind, Option.bind_some]
  refine ⟨_, rfl, ?_, rfl, rfl, ?_⟩
  · simp only [gone, and_one]
    split
    · exact unregister_sound h hx
    · exact h
  · show (if _ then _ else _) = _
    split
    · rfl
    · rename_i hn; exact (keep_remove _ hn).symm

mutual
theorem does_sound {σ : Type} {prio : Addr → Int} {cb : Callback σ} {head : Addr} : ∀ {p : Prog σ} {l l' : List Addr} {w : σ} {r : BitVec 32}, Does prio cb head p l l' w r →
    ∃ D, ∀ d deep s, D ≤ d → D ≤ deep → Holds prio head s l → ∃ s', runProg (call prio cb head d deep) prio head deep p s = some (s', w, r) ∧ Holds prio head s' l'
  | _, _, _, _, _, .done => ⟨0, fun d deep s _ _ h => ⟨s, rfl, h⟩⟩
  | _, l, _, _, _, .act ok rest => by
    obtain ⟨D, ih⟩ := does_sound rest
    refine ⟨max D (l.length + 2), fun d deep s h1 h2 h => ?_⟩
    obtain ⟨s1, e1, q1⟩ := act_sound h ok (show l.length + 1 < deep by omega)
    obtain ⟨s', e', q'⟩ := ih d deep s1 (by omega) (by omega) q1
    exact ⟨s', by simp only [runProg, e1, Option.bind_eq_bind, Option.bind_some]; exact e', q'⟩
  | _, l, _, _, _, .notify (n := n) (w := w) (c := c) (calls := calls) nested rest => by
    obtain ⟨D1, ih1⟩ := round_sound nested
    obtain ⟨D2, ih2⟩ := does_sound rest
    refine ⟨max (D1 + 1) (max D2 (n + 1)), fun d deep s h1 h2 h => ?_⟩
    obtain ⟨d', rfl⟩ : ∃ d', d = d' + 1 := ⟨d - 1, by omega⟩
    have h0 : s.nodes.next head = l.head?.getD head := by rw [holds_first h]; cases l <;> rfl
    obtain ⟨o, e, q1, q2, q3, q4⟩ := ih1 d' deep deep ⟨s, w, c, 0⟩ (s.nodes.next (s.nodes.next head)) (by omega) (by omega) (by omega) h rfl (by
      intro x hx
      have hxl : x ∈ l := List.mem_of_mem_head? hx
      refine ⟨(Reenter.holds_behind h hxl).2, fun _ => ⟨hxl, ?_⟩⟩
      rw [h0, hx]
      exact (Reenter.holds_behind h hxl).1)
    obtain ⟨s', e', q'⟩ := ih2 (d' + 1) deep o.chain (by omega) (by omega) q1
    have ec : call prio cb head (d' + 1) deep s w n c = some o := by simp only [call]; rw [← e, h0]
    have er : o.ret = result calls := by
      rw [q4]
      split
      · rename_i e; rw [e]; rfl
      · rfl
    refine ⟨s', ?_, q'⟩
    simp only [runProg, ec, Option.bind_eq_bind, Option.bind_some]
    rw [q2, q3, er]
    exact e'

theorem round_sound {σ : Type} {prio : Addr → Int} {cb : Callback σ} {head : Addr} : ∀ {n : Nat} {l : List Addr} {w : σ} {t : Option Addr} {calls : List (Addr × BitVec 32)}
    {l' : List Addr} {w' : σ}, Round prio cb head n l w t calls l' w' →
    ∃ D, ∀ d deep fuel (o : Out σ) (tmp : Addr), D ≤ d → D ≤ deep → n < fuel → Holds prio head o.chain l → o.world = w →
      (∀ x, t = some x → x ≠ head ∧ (n ≠ 0 → x ∈ l ∧ tmp = (Reenter.behind x l).getD head)) →
      ∃ o', callFrom (call prio cb head d deep) prio cb head deep fuel o n (t.getD head) tmp = some o' ∧ Holds prio head o'.chain l' ∧ o'.world = w' ∧
        o'.called = o.called.map (· + BitVec.ofNat 32 calls.length) ∧ o'.ret = if calls = [] then o.ret else result calls
  | _, _, _, _, _, _, _, .over => ⟨0, fun d deep fuel o tmp _ _ hf h hw _ => by
      obtain ⟨f, rfl⟩ : ∃ f, fuel = f + 1 := ⟨fuel - 1, by omega⟩
      exact ⟨o, by simp [callFrom], h, hw, by simp, by simp⟩⟩
  | _, _, _, _, _, _, _, .limit => ⟨0, fun d deep fuel o tmp _ _ hf h hw ht => by
      obtain ⟨f, rfl⟩ : ∃ f, fuel = f + 1 := ⟨fuel - 1, by omega⟩
      exact ⟨o, by simp [callFrom], h, hw, by simp, by simp⟩⟩
  | _, _, _, _, _, _, _, .stop (x := x) does hs => by
    obtain ⟨D, ih⟩ := does_sound does
    refine ⟨D, fun d deep fuel o tmp h1 h2 hf h hw ht => ?_⟩
    obtain ⟨f, rfl⟩ : ∃ f, fuel = f + 1 := ⟨fuel - 1, by omega⟩
    subst hw
    obtain ⟨hxh, _⟩ := ht x rfl
    obtain ⟨s1, e1, q1⟩ := ih d deep o.chain h1 h2 h
    obtain ⟨o1, e1, p1, p2, p3, p4⟩ := gone_sound e1 q1 hxh
    simp only [Option.getD_some, callFrom, if_neg hxh, Nat.add_one_ne_zero, if_false, e1, Option.bind_eq_bind, Option.bind_some, p4]
    rw [if_pos ((stop_bit _).2 hs)]
    refine ⟨o1, rfl, p1, p2, by rw [p3]; rfl, ?_⟩
    rw [p4]; simp [result]
  | _, l, _, _, _, _, _, .more (n := n) (x := x) (l1 := l1) (calls := calls) does hs hb rest => by
    obtain ⟨D1, ih1⟩ := does_sound does
    obtain ⟨D2, ih2⟩ := round_sound rest
    refine ⟨max D1 D2, fun d deep fuel o tmp h1 h2 hf h hw ht => ?_⟩
    obtain ⟨f, rfl⟩ : ∃ f, fuel = f + 1 := ⟨fuel - 1, by omega⟩
    subst hw
    obtain ⟨hxh, ht'⟩ := ht x rfl
    obtain ⟨hxl, htmp⟩ := ht' (by omega)
    obtain ⟨s1, e1, q1⟩ := ih1 d deep o.chain (by omega) (by omega) h
    obtain ⟨o1, e1, p1, p2, p3, p4⟩ := gone_sound e1 q1 hxh
    simp only [Option.getD_some, callFrom, if_neg hxh, Nat.add_one_ne_zero, if_false, e1, Option.bind_eq_bind, Option.bind_some, p4, Nat.add_sub_cancel]
    rw [if_neg (fun e => by rw [(stop_bit _).1 e] at hs; cases hs), htmp]
    obtain ⟨o', e', r1, r2, r3, r4⟩ := ih2 d deep f o1 (o1.chain.nodes.next ((Reenter.behind x l).getD head)) (by omega) (by omega) (by omega) p1 p2 (by
      intro y hyb
      have hyl := Reenter.behind_mem hyb
      refine ⟨(Reenter.holds_behind h hyl).2, fun hn => ⟨hb hn y hyb, ?_⟩⟩
      rw [hyb]
      exact (Reenter.holds_behind p1 (hb hn y hyb)).1)
    refine ⟨o', e', r1, r2, ?_, ?_⟩
    · rw [r3, p3]
      cases o.called with
      | none => rfl
      | some c =>
        simp only [Option.map_some, List.length_cons, Option.some.injEq, BitVec.add_assoc]
        congr 1
        rw [Nat.add_comm, BitVec.ofNat_add]
        rfl
    · rw [r4, if_neg (List.cons_ne_nil _ _)]
      by_cases hn : calls = []
      · rw [if_pos hn, hn, p4]; rfl
      · rw [if_neg hn]
        simp only [result]
        rw [List.getLast?_cons_of_ne_nil hn]
end

/-- **C118, partial, with rounds inside rounds.** Callbacks may register nodes, unregister nodes and start rounds on the chain they are called from, to any depth, and act on
what those return. If the nodes behind the ones being called stay registered and the nesting ends, the round ends and does what the specification says: it calls after each
node the one that stood behind it, leaves the chain and the world that result, counts its own calls and returns its own last answer. -/
theorem nested_round_partial {σ : Type} {prio : Addr → Int} (cb : Callback σ) {head : Addr} {s : Ilist.State} {l l' : List Addr} {w w' : σ} {n : Nat} {calls : List (Addr × BitVec 32)}
    (h : Holds prio head s l) (hr : Round prio cb head n l w l.head? calls l' w') (called : Option (BitVec 32)) :
    ∃ D, ∀ d deep, D ≤ d → D ≤ deep → ∃ o, call prio cb head d deep s w n called = some o ∧ Holds prio head o.chain l' ∧ o.world = w' ∧
      o.called = called.map (· + BitVec.ofNat 32 calls.length) ∧ o.ret = result calls := by
  obtain ⟨D1, ih1⟩ := round_sound hr
  refine ⟨max (D1 + 1) (n + 1), fun d deep hd hp => ?_⟩
  obtain ⟨d', rfl⟩ : ∃ d', d = d' + 1 := ⟨d - 1, by omega⟩
  have h0 : s.nodes.next head = l.head?.getD head := by rw [holds_first h]; cases l <;> rfl
  obtain ⟨o, e, q1, q2, q3, q4⟩ := ih1 d' deep deep ⟨s, w, called, 0⟩ (s.nodes.next (s.nodes.next head)) (by omega) (by omega) (by omega) h rfl (by
    intro x hx
    have hxl : x ∈ l := List.mem_of_mem_head? hx
    refine ⟨(Reenter.holds_behind h hxl).2, fun _ => ⟨hxl, ?_⟩⟩
    rw [h0, hx]
    exact (Reenter.holds_behind h hxl).1)
  refine ⟨o, by simp only [call]; rw [← e, h0], q1, q2, q3, ?_⟩
  rw [q4]
  split
  · rename_i e; rw [e]; rfl
  · rfl

mutual
theorem does_sorted {σ : Type} {prio : Addr → Int} {cb : Callback σ} {head : Addr} : ∀ {p : Prog σ} {l l' : List Addr} {w : σ} {r : BitVec 32}, Does prio cb head p l l' w r →
    (l.Pairwise fun a b => prio a ≤ prio b) → l'.Pairwise fun a b => prio a ≤ prio b
  | _, _, _, _, _, .done, h => h
  | _, _, _, _, _, .act (a := a) ok rest, h => does_sorted rest (Reenter.play_sorted [a] h)
  | _, _, _, _, _, .notify nested rest, h => does_sorted rest (nested_sorted nested h)

/-- The chain stays in order of priority. -/
theorem nested_sorted {σ : Type} {prio : Addr → Int} {cb : Callback σ} {head : Addr} : ∀ {n : Nat} {l : List Addr} {w : σ} {t : Option Addr} {calls : List (Addr × BitVec 32)}
    {l' : List Addr} {w' : σ}, Round prio cb head n l w t calls l' w' → (l.Pairwise fun a b => prio a ≤ prio b) → l'.Pairwise fun a b => prio a ≤ prio b
  | _, _, _, _, _, _, _, .over, h => h
  | _, _, _, _, _, _, _, .limit, h => h
  | _, _, _, _, _, _, _, .stop does hs, h => by
    unfold gone; split
    · exact List.Pairwise.sublist List.erase_sublist (does_sorted does h)
    · exact does_sorted does h
  | _, _, _, _, _, _, _, .more does hs hb rest, h => by
    refine nested_sorted rest ?_
    unfold gone; split
    · exact List.Pairwise.sublist List.erase_sublist (does_sorted does h)
    · exact does_sorted does h
end

/-- Each round makes no more calls of its own than asked for. -/
theorem nested_calls {σ : Type} {prio : Addr → Int} {cb : Callback σ} {head : Addr} : ∀ {n : Nat} {l : List Addr} {w : σ} {t : Option Addr} {calls : List (Addr × BitVec 32)}
    {l' : List Addr} {w' : σ}, Round prio cb head n l w t calls l' w' → calls.length ≤ n
  | _, _, _, _, _, _, _, .over => Nat.zero_le _
  | _, _, _, _, _, _, _, .limit => Nat.zero_le _
  | _, _, _, _, _, _, _, .stop _ _ => by simp
  | _, _, _, _, _, _, _, .more _ _ _ rest => by have := nested_calls rest; simp only [List.length_cons]; omega

/-! ## With callbacks that start no rounds this is the model of `Reenter` -/

/-- A callback that changes the chain and answers. -/
def plain {σ : Type} (a : Reenter.Answer σ) : Prog σ := a.acts.foldr .act (.done a.world a.ret)

theorem runProg_plain {σ : Type} (inner : Ilist.State → σ → Nat → Option (BitVec 32) → Option (Out σ)) (prio : Addr → Int) (head : Addr) (deep : Nat) (w : σ) (r : BitVec 32) :
    ∀ (as : List Act) (s : Ilist.State), runProg inner prio head deep (as.foldr .act (.done w r)) s = (Reenter.runActs prio head deep s as).map fun s => (s, w, r)
  | [], s => rfl
  | a :: as, s => by
    simp only [List.foldr_cons, runProg, Reenter.runActs, Option.bind_eq_bind]
    cases a.run prio head deep s with
    | none => rfl
    | some s' => simp only [Option.bind_some]; exact runProg_plain inner prio head deep w r as s'

theorem call_plain {σ : Type} (prio : Addr → Int) (cb : Reenter.Callback σ) (head : Addr) (d deep : Nat) (s : Ilist.State) (w : σ) (n : Nat) (called : Option (BitVec 32)) :
    call prio (fun w x => plain (cb w x)) head (d + 1) deep s w n called = Reenter.call prio cb s head w n called deep := by
  have main : ∀ (inner : Ilist.State → σ → Nat → Option (BitVec 32) → Option (Out σ)) (fuel : Nat) (o : Out σ) (n : Nat) (node tmp : Addr),
      callFrom inner prio (fun w x => plain (cb w x)) head deep fuel o n node tmp = Reenter.callFrom prio cb head deep fuel o n node tmp := by
    intro inner fuel
    induction fuel with
    | zero => intros; rfl
    | succ fuel ih =>
      intro o n node tmp
      have hv : visit inner prio (fun w x => plain (cb w x)) head deep node o = Reenter.visit prio cb head deep node o := by
        simp only [visit, Reenter.visit, plain, runProg_plain, Option.bind_eq_bind]
        cases Reenter.runActs prio head deep o.chain (cb o.world node).acts <;> rfl
      simp only [callFrom, Reenter.callFrom, hv, ih]
  simp only [call, main, Reenter.call]

/-! ## Examples and limits -/

/-- The callback of node 1 registers node 3, starts a round of one call (which calls 1 again, that only answers), and takes itself out; 2 and 3 only answer.
The world is the list of calls. -/
def exCb : Callback (List Addr) := fun w x =>
  if x = 1 ∧ w = [] then .act (.register 3 true) (.notify [1] 1 (some 0) fun w c r => .done (w ++ [c.elim 9 (·.toNat)]) 1)
  else .done (w ++ [x]) 0

example : Round Reenter.exPrio exCb 9 5 [1, 2] [] (some 1) [(1, 1), (2, 0), (3, 0)] [2, 3] [1, 1, 1, 2, 3] :=
  .more (l1 := [1, 2, 3]) (w1 := [1, 1, 1])
    (.act (l' := [1, 2, 3]) (by intro _; decide)
      (.notify (l1 := [1, 2, 3]) (w1 := [1, 1]) (calls := [(1, 0)])
        (.more (l1 := [1, 2, 3]) (w1 := [1, 1]) (r := 0) (calls := []) .done rfl (by decide) .limit) .done))
    rfl (by intro _ y h; cases h; decide)
    (.more (l1 := [2, 3]) (w1 := [1, 1, 1, 2]) (r := 0) .done rfl (by intro _ y h; cases h; decide)
      (.more (l1 := [2, 3]) (w1 := [1, 1, 1, 2, 3]) (r := 0) .done rfl (by intro _ y h; cases h) .over))

example : ((Reenter.exChain [.register 1 true, .register 2 true]).bind fun s => call Reenter.exPrio exCb 9 3 20 s [] 5 (some 0)).map
    (fun o => (o.world, o.called, Ilist.forEach o.chain 9 9)) = some ([1, 1, 1, 2, 3], some 3, some [2, 3]) := by decide +kernel

/-- A callback that always starts a round on its own chain is called without end: there is no limit on the depth. -/
theorem nested_endless {σ : Type} (prio : Addr → Int) {cb : Callback σ} {head x : Addr} {s : Ilist.State} {l : List Addr} (h : Holds prio head s (x :: l))
    (hcb : ∀ w, ∃ w' n c k, cb w x = .notify w' (n + 1) c k) : ∀ (d deep : Nat) (w : σ) (n : Nat) (c : Option (BitVec 32)), call prio cb head d deep s w (n + 1) c = none
  | 0, _, _, _, _ => rfl
  | d + 1, 0, _, _, _ => rfl
  | d + 1, deep + 1, w, n, c => by
    have hx : x ≠ head := (Reenter.holds_behind h (List.mem_cons_self ..)).2
    obtain ⟨w', n', c', k, e⟩ := hcb w
    have ih := nested_endless prio h hcb d (deep + 1) w' n' c'
    simp only [call, holds_first h, callFrom]
    rw [if_neg (show (x :: l).headD head ≠ head from hx), if_neg (by omega)]
    show (visit _ prio cb head (deep + 1) x _).bind _ = none
    have hv : visit (call prio cb head d (deep + 1)) prio cb head (deep + 1) x ⟨s, w, c, 0⟩ = none := by
      simp only [visit, e, runProg, ih, Option.bind_eq_bind, Option.bind_none]
    rw [hv]; rfl

end Bfdev.Notifier.Nest

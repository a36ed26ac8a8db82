import Verif.Ilist.Model
/-!
Model of `src/notifier.c` on the indexed lists of `Verif/Ilist/Model.lean`. The callbacks are a function `cb` of the outside world's
state; they are assumed not to touch the chain themselves. Priorities are fixed while a node is registered.
-/
namespace Bfdev.Notifier
open Dlist (Addr)

/-- `notifier_chain_cmp`, notifier.c:13-23, with `bfdev_cmp` of macro.h:31-33. -/
def chainCmp (prio : Addr → Int) (a b : Addr) : Int := if prio a > prio b then 1 else -1

/-- `BFDEV_NOTIFI_RET_REMOVE` and `BFDEV_NOTIFI_RET_STOP`, notifier.h:22-29. -/
def retRemove : BitVec 32 := 1
def retStop : BitVec 32 := 2

/-- `bfdev_notifier_register`, notifier.c:53-63; `hasEntry` says whether the node has a callback. The result is the status and the chain. -/
def register (s : Ilist.State) (head node : Addr) (hasEntry : Bool) (prio : Addr → Int) (fuel : Nat) : Option (Int × Ilist.State) :=
  if !hasEntry then some (-22, s)
  else
    match Ilist.add (Ilist.nodeInit s node) head node (chainCmp prio) fuel with
    | none => none
    | some s => some (0, s)

/-- `bfdev_notifier_unregister`, notifier.c:65-69. -/
def unregister (s : Ilist.State) (head node : Addr) : Ilist.State := Ilist.del s head node

/-- What a round leaves behind: the chain, the outside world, the counter of calls if there is one and the value returned. -/
structure Out (σ : Type) where
  chain : Ilist.State
  world : σ
  called : Option (BitVec 32)
  ret : BitVec 32

/-- One callback, notifier.c:37-44. -/
def visit {σ : Type} (cb : σ → Addr → σ × BitVec 32) (head node : Addr) (o : Out σ) : Out σ :=
  let r := (cb o.world node).2
  { chain := if r &&& retRemove ≠ 0 then Ilist.del o.chain head node else o.chain
    world := (cb o.world node).1
    called := o.called.map (· + 1)
    ret := if r &&& retRemove ≠ 0 then r &&& ~~~retRemove else r }

/-- The loop of `bfdev_notifier_call`, notifier.c:33-48; the successor of a node is read before its callback runs. -/
def callFrom {σ : Type} (cb : σ → Addr → σ × BitVec 32) (head : Addr) : Nat → Out σ → Nat → Addr → Addr → Option (Out σ)
  | 0, _, _, _, _ => none
  | fuel + 1, o, callNum, node, tmp =>
    if node = head then some o
    else if callNum = 0 then some o
    else
      let o := visit cb head node o
      if o.ret &&& retStop ≠ 0 then some o
      else callFrom cb head fuel o (callNum - 1) tmp (o.chain.nodes.next tmp)

/-- `bfdev_notifier_call`, notifier.c:25-51. `call_num` is unsigned and read only until it reaches zero, so a natural number does. -/
def call {σ : Type} (cb : σ → Addr → σ × BitVec 32) (s : Ilist.State) (head : Addr) (w : σ) (callNum : Nat)
    (called : Option (BitVec 32)) (fuel : Nat) : Option (Out σ) :=
  let node := s.nodes.next head
  callFrom cb head fuel ⟨s, w, called, 0⟩ callNum node (s.nodes.next node)

end Bfdev.Notifier

import Verif.Notifier.Model
/-!
Specification of notifier chains: the registered nodes in calling order.
-/
namespace Bfdev.Notifier
open Dlist (Addr)

/-- A new node goes before the first node whose priority is not smaller. -/
def enter (prio : Addr → Int) (x : Addr) : List Addr → List Addr
  | [] => [x]
  | y :: l => if prio x ≤ prio y then x :: y :: l else y :: enter prio x l

/-- Bit 0 of an answer asks for removal, bit 1 asks to stop. -/
def asksRemove (r : BitVec 32) : Bool := r.getLsbD 0
def asksStop (r : BitVec 32) : Bool := r.getLsbD 1

/-- A round over the nodes `l`, with `n` calls left: the nodes called, each with its answer, in order. -/
def round {σ : Type} (cb : σ → Addr → σ × BitVec 32) : List Addr → Nat → σ → List (Addr × BitVec 32)
  | [], _, _ => []
  | _ :: _, 0, _ => []
  | x :: l, n + 1, w =>
    (x, (cb w x).2) :: if asksStop (cb w x).2 then [] else round cb l n (cb w x).1

/-- The outside world after the calls `c`. -/
def after {σ : Type} (cb : σ → Addr → σ × BitVec 32) (w : σ) (c : List (Addr × BitVec 32)) : σ := c.foldl (fun w p => (cb w p.1).1) w

/-- The nodes that asked for removal. -/
def gone (c : List (Addr × BitVec 32)) : List Addr := (c.filter fun p => asksRemove p.2).map (·.1)

/-- The value returned: the last answer, with the request for removal taken out. -/
def result (c : List (Addr × BitVec 32)) : BitVec 32 :=
  match c.getLast? with
  | none => 0
  | some p => p.2 &&& ~~~1

inductive Op where
  | register (x : Addr) (hasEntry : Bool)
  | unregister (x : Addr)
  | call (n : Nat)

/-- What each operation does to the chain. -/
def Op.spec {σ : Type} (prio : Addr → Int) (cb : σ → Addr → σ × BitVec 32) (l : List Addr) (w : σ) : Op → List Addr × σ
  | .register x true => (enter prio x l, w)
  | .register _ false => (l, w)
  | .unregister x => (l.erase x, w)
  | .call n => (l.filter (· ∉ gone (round cb l n w)), after cb w (round cb l n w))

/-- A node is not registered twice; nodes unregistered were registered at some time, which here means they are initialised. -/
def Op.Ok (head : Addr) (l : List Addr) : Op → Prop
  | .register x _ => x ≠ head ∧ x ∉ l
  | .unregister x => x ≠ head
  | .call _ => True

def Op.run {σ : Type} (prio : Addr → Int) (cb : σ → Addr → σ × BitVec 32) (head : Addr) (fuel : Nat) (s : Ilist.State) (w : σ) :
    Op → Option (Ilist.State × σ)
  | .register x e => (Notifier.register s head x e prio fuel).map fun r => (r.2, w)
  | .unregister x => some (Notifier.unregister s head x, w)
  | .call n => (Notifier.call cb s head w n none fuel).map fun o => (o.chain, o.world)

def specAll {σ : Type} (prio : Addr → Int) (cb : σ → Addr → σ × BitVec 32) (l : List Addr) (w : σ) : List Op → List Addr × σ
  | [] => (l, w)
  | op :: ops => specAll prio cb (op.spec prio cb l w).1 (op.spec prio cb l w).2 ops

def OkAll {σ : Type} (prio : Addr → Int) (cb : σ → Addr → σ × BitVec 32) (head : Addr) (l : List Addr) (w : σ) : List Op → Prop
  | [] => True
  | op :: ops => op.Ok head l ∧ OkAll prio cb head (op.spec prio cb l w).1 (op.spec prio cb l w).2 ops

def runAll {σ : Type} (prio : Addr → Int) (cb : σ → Addr → σ × BitVec 32) (head : Addr) (fuel : Nat) (s : Ilist.State) (w : σ) :
    List Op → Option (Ilist.State × σ)
  | [] => some (s, w)
  | op :: ops =>
    match op.run prio cb head fuel s w with
    | none => none
    | some (s, w) => runAll prio cb head fuel s w ops

end Bfdev.Notifier

import Verif.Respool.Model
import Verif.Dlist.Spec
/-!
Specification of a resource pool: the resources, most recently inserted first, and the release callbacks made so far.
-/
namespace Bfdev.Respool
open Dlist (Addr)

structure Abs where
  pool : List Addr
  released : List Addr

inductive Op where
  | insert (x : Addr)
  | remove (x : Addr)
  | release (x : Addr)
  | findRemove (miss : Addr → Int)
  | findRelease (miss : Addr → Int)

/-- The most recently inserted resource the callback accepts. -/
def found (a : Abs) (miss : Addr → Int) : Option Addr := a.pool.find? fun x => miss x = 0

/-- What each operation is supposed to do. -/
def Op.spec (a : Abs) : Op → Abs
  | .insert x => { a with pool := x :: a.pool }
  | .remove x => { a with pool := a.pool.erase x }
  | .release x => { pool := a.pool.erase x, released := a.released ++ [x] }
  | .findRemove miss =>
    match found a miss with
    | none => a
    | some x => { a with pool := a.pool.erase x }
  | .findRelease miss =>
    match found a miss with
    | none => a
    | some x => { pool := a.pool.erase x, released := a.released ++ [x] }

/-- Only nodes outside the pool are inserted, only nodes inside are removed or released by name. -/
def Op.Ok (head : Addr) (a : Abs) : Op → Prop
  | .insert x => x ≠ head ∧ x ∉ a.pool
  | .remove x => x ∈ a.pool
  | .release x => x ∈ a.pool
  | .findRemove _ => True
  | .findRelease _ => True

def specAll (a : Abs) (ops : List Op) : Abs := ops.foldl Op.spec a

def OkAll (head : Addr) (a : Abs) : List Op → Prop
  | [] => True
  | op :: ops => op.Ok head a ∧ OkAll head (op.spec a) ops

/-- The operations of the library; searches also say what they return. -/
def Op.run (head : Addr) (fuel : Nat) (s : State) : Op → Option (Option Addr × State)
  | .insert x => some (none, Respool.insert s head x)
  | .remove x => some (none, Respool.remove s x)
  | .release x => some (none, Respool.release s x)
  | .findRemove miss => Respool.findRemove s head miss fuel
  | .findRelease miss => Respool.findRelease s head miss fuel

/-- What a search returns. -/
def Op.answer (a : Abs) : Op → Option Addr
  | .findRemove miss => found a miss
  | .findRelease miss => found a miss
  | _ => none

def answers (a : Abs) : List Op → List (Option Addr)
  | [] => []
  | op :: ops => op.answer a :: answers (op.spec a) ops

def runAll (head : Addr) (fuel : Nat) (s : State) : List Op → Option (List (Option Addr) × State)
  | [] => some ([], s)
  | op :: ops =>
    match op.run head fuel s with
    | none => none
    | some (r, s') =>
      match runAll head fuel s' ops with
      | none => none
      | some (rs, t) => some (r :: rs, t)

/-- Memory holds the pool `a` under the head. -/
structure Holds (head : Addr) (s : State) (a : Abs) : Prop where
  ring : Dlist.Ring s.heap (head :: a.pool)
  nodup : (head :: a.pool).Nodup
  log : s.log = a.released

end Bfdev.Respool

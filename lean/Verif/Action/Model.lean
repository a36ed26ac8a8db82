/-!
Actions: a function with its argument that can be changed and called.
Model of include/bfdev/action.h. Functions and data are numbers: their addresses, `none` is `NULL`.
-/
namespace Bfdev.Action

/-- `bfdev_action_t`, action.h:21-24. -/
structure Act where
  func : Option Nat
  data : Nat
deriving DecidableEq, Repr

/-- `-BFDEV_ENODATA`, errno.h:54. -/
def ENODATA : Int := -61

/-- `BFDEV_ACTION_INIT` and `bfdev_action_init`, action.h:26-47. -/
def init (func : Option Nat) (data : Nat) : Act := ⟨func, data⟩

/-- `bfdev_action_update`, action.h:54-58. -/
def update (a : Act) (data : Nat) : Act := { a with data := data }

/-- `bfdev_action_clear`, action.h:64-68. -/
def clear (a : Act) : Act := { a with func := none }

/-- What can be done to an action without calling it. -/
inductive Change where
  | init (func : Option Nat) (data : Nat)
  | update (data : Nat)
  | clear
deriving DecidableEq, Repr

/-- A change carried out, action.h:42-68. -/
def Change.run (a : Act) : Change → Act
  | .init f d => Action.init f d
  | .update d => Action.update a d
  | .clear => Action.clear a

/-- What is done, from outside or by a function that is being called. -/
inductive Op where
  | change (c : Change)
  | call
deriving DecidableEq, Repr

/-- What happens, in order: changes, functions called with an argument, and results of `bfdev_action_call`. -/
inductive Event where
  | change (c : Change)
  | enter (func data : Nat)
  | result (r : Int)
deriving DecidableEq, Repr

/-- The functions: what they do to the action they are called from, which may be to call it again, and their result. Both may depend on the
argument and on all that has happened before, newest first. -/
abbrev World := List Event → Nat → Nat → List Op × Int

/-- A program, with `bfdev_action_call`, action.h:74-80: function and argument are read before the call. The events are added to `past`, newest
first. Fuel: functions may call each other for ever. -/
def run (w : World) : Nat → List Op → List Event → Act → Option (List Event × Act)
  | 0, _, _, _ => none
  | _ + 1, [], past, a => some (past, a)
  | n + 1, .change c :: ops, past, a => run w n ops (.change c :: past) (c.run a)
  | n + 1, .call :: ops, past, a =>
    match a.func with
    | some f => (run w n (w past f a.data).1 (.enter f a.data :: past) a).bind fun s => run w n ops (.result (w past f a.data).2 :: s.1) s.2
    | none => run w n ops (.result ENODATA :: past) a

end Bfdev.Action

import Verif.Hashmap.Model
/-!
Specification of the hash map: the entries are a collection of nodes with their keys. What a call may answer and what it does to
the entries is said in terms of that collection only.
-/
namespace Bfdev.Hashmap
open Bfdev.Dlist (Addr Heap)

/-- The calls of the interface. An insertion names the key the new node carries. -/
inductive Op (κ : Type) where
  | insert (node : Addr) (key : κ) (st : Strategy)
  | del (key : κ)
  | find (key : κ)
  | release

/-- Run a call on the model. `find` returns the node found, if any, and has no return code of its own. -/
def Op.run {κ : Type} (ops : Ops κ) (malloc : Nat → Option Addr) (fuel : Nat) (s : Heap) (m : Map) : Op κ → Option Out
  | .insert node _ st => Hashmap.insert ops malloc fuel s m node st
  | .del key => Hashmap.del ops malloc fuel s m key
  | .find key => (Hashmap.find ops fuel s m key).map fun r => ⟨s, m, 0, if r = 0 then none else some r⟩
  | .release => some ⟨s, Hashmap.release m, 0, none⟩

/-- Which answers are right when the map holds the entries `M`; `nomem` says that `malloc` refused. -/
def Right {κ : Type} (M : List (Addr × κ)) (nomem : Prop) : Op κ → Int → Option Addr → Prop
  | .insert _ key st, code, node =>
    if st = .append then node = none ∧ (code = 0 ∨ code = -12 ∧ nomem)
    else (∃ e, (e, key) ∈ M ∧ node = some e ∧ code = if st = .add then -17 else 0) ∨
      ((∀ e, (e, key) ∉ M) ∧ node = none ∧ if st = .update then code = -2 else code = 0 ∨ code = -12 ∧ nomem)
  | .del key, code, node => (∃ e, (e, key) ∈ M ∧ node = some e ∧ code = 0) ∨ ((∀ e, (e, key) ∉ M) ∧ node = none ∧ code = -2)
  | .find key, code, node => code = 0 ∧ ((∃ e, (e, key) ∈ M ∧ node = some e) ∨ ((∀ e, (e, key) ∉ M) ∧ node = none))
  | .release, code, node => code = 0 ∧ node = none

/-- The entries after a call that answered `code` and `node`: a failing call changes nothing, a successful insertion puts the new node
in the place of the one it replaced or adds it, a successful deletion takes out the node it returns. -/
def after {κ : Type} (M : List (Addr × κ)) : Op κ → Int → Option Addr → List (Addr × κ)
  | .insert n key _, code, node =>
    if code ≠ 0 then M
    else match node with
      | some e => M.map fun p => if p.1 = e then (n, key) else p
      | none => (n, key) :: M
  | .del _, code, node => if code ≠ 0 then M else M.filter fun p => some p.1 ≠ node
  | .find _, _, _ => M
  | .release, _, _ => []

/-- The addresses in use by the map: its nodes and the heads of its buckets. -/
def live {κ : Type} (m : Map) (M : List (Addr × κ)) : List Addr := M.map (·.1) ++ (List.range m.capacity).map fun i => m.buckets + 8 * i

/-- The node an operation brings along. -/
def Op.fresh {κ : Type} : Op κ → List Addr
  | .insert n _ _ => [n]
  | _ => []

/-- What the caller owes: the callbacks agree with the keys (`hash` is the hash of a key, and does not change over time), the node to
be inserted is not in use, and `malloc` returns blocks of less than 2^63 bytes that overlap nothing in use. -/
structure Owed {κ : Type} (hash : κ → BitVec 64) (ops : Ops κ) (malloc : Nat → Option Addr) (m : Map) (M : List (Addr × κ)) (op : Op κ) : Prop where
  hashKey : ∀ k : κ, ops.hashKey k = hash k
  hashNode : ∀ n k, (n, k) ∈ M → ops.hashNode n = hash k
  find : ∀ n k, (n, k) ∈ M → ∀ k' : κ, ops.find n k' = 0 ↔ k = k'
  node : ∀ n key st, op = .insert n key st → n ≠ 0 ∧ n ∉ live m M ∧ ops.hashNode n = hash key ∧ ∀ e k, (e, k) ∈ M → (ops.equal n e = 0 ↔ key = k)
  malloc : ∀ bytes q, malloc bytes = some q → q ≠ 0 ∧ bytes < 2 ^ 63 ∧ ∀ a ∈ live m M ++ op.fresh, a < q ∨ q + bytes ≤ a

/-- `malloc` refuses some request. -/
def Refuses (malloc : Nat → Option Addr) : Prop := ∃ bytes, malloc bytes = none

/-- The states reached by histories of calls satisfying `P` from an initialised map, with the entries they should have. Callbacks and
allocator may be different ones for each call; the node contents behind them may have changed for nodes outside the map. The walks
are given enough steps for the entries there are, and there are fewer than 2^64 of them. -/
inductive Reach {κ : Type} (hash : κ → BitVec 64) (P : Op κ → Prop) : Heap → Map → List (Addr × κ) → Prop
  | init {s} : Reach hash P s init []
  | call {s m M ops malloc fuel op out} : Reach hash P s m M → P op → Owed hash ops malloc m M op → M.length < fuel → M.length + 1 < 2 ^ 64 →
      Op.run ops malloc fuel s m op = some out → Reach hash P out.heap out.map (after M op out.code out.node)

/-- The entries as a function from keys. -/
def assoc {κ : Type} [DecidableEq κ] (M : List (Addr × κ)) (k : κ) : Option Addr := (M.find? fun p => p.2 = k).map (·.1)

/-- `F` with the value at `k` replaced. -/
def put {κ : Type} [DecidableEq κ] (F : κ → Option Addr) (k : κ) (v : Option Addr) : κ → Option Addr := fun x => if x = k then v else F x

/-- A finite map: which answers and which new map are right for a call on the map `F`. -/
def MapSpec {κ : Type} [DecidableEq κ] (F : κ → Option Addr) (nomem : Prop) : Op κ → Int → Option Addr → (κ → Option Addr) → Prop
  | .insert n k .add, code, node, F' =>
    node = F k ∧ if (F k).isSome then code = -17 ∧ F' = F else code = 0 ∧ F' = put F k (some n) ∨ code = -12 ∧ nomem ∧ F' = F
  | .insert n k .set, code, node, F' =>
    node = F k ∧ if (F k).isSome then code = 0 ∧ F' = put F k (some n) else code = 0 ∧ F' = put F k (some n) ∨ code = -12 ∧ nomem ∧ F' = F
  | .insert n k .update, code, node, F' => node = F k ∧ if (F k).isSome then code = 0 ∧ F' = put F k (some n) else code = -2 ∧ F' = F
  | .insert _ _ .append, _, _, _ => False
  | .del k, code, node, F' => node = F k ∧ if (F k).isSome then code = 0 ∧ F' = put F k none else code = -2 ∧ F' = F
  | .find k, code, node, F' => code = 0 ∧ node = F k ∧ F' = F
  | .release, code, node, F' => code = 0 ∧ node = none ∧ F' = fun _ => none

/-- Calls other than appending a possible duplicate. -/
def NoAppend {κ : Type} : Op κ → Prop
  | .insert _ _ st => st ≠ .append
  | _ => True

end Bfdev.Hashmap

import Verif.Hashmap.Model
/-!
Model of the hash tables of `include/bfdev/hashtbl.h`, used on their own: an array of list heads of eight bytes each at an address, with chains as in
`Verif.Hlist`. Initialisation and addition are in `Verif.Hashmap.Model` (`tblInit`, `tblAdd`), as is the head chosen by an iteration (`masked`).
-/
namespace Bfdev.Hashtbl
open Bfdev.Dlist (Addr Heap)
open Bfdev.Hashmap (tblInit tblAdd masked)

/-- `BFDEV_HASHTBL_CHECK`, hashtbl.h:17-18: the number of heads declared, −1 (no array at all) for a bad size. -/
def check (size : Nat) : Int := if size < 2 ∨ size &&& (size - 1) ≠ 0 then -1 else size

/-- `bfdev_hashtbl_empty`, hashtbl.h:59-70, from head `count` on, `n` turns to go. -/
def emptyLoop (s : Heap) (head : Nat) : Nat → Nat → Bool
  | 0, _ => true
  | n + 1, count => if !Hlist.checkEmpty s (head + 8 * count) then false else emptyLoop s head n (count + 1)

/-- `bfdev_hashtbl_empty`, hashtbl.h:59-70. -/
def empty (s : Heap) (head size : Nat) : Bool := emptyLoop s head size 0

/-- `bfdev_hashtbl_del`, hashtbl.h:93-97. -/
def del (s : Heap) (node : Addr) : Option Heap := Hlist.delInit s node

/-- `bfdev_hashtbl_for_each_idx`, hashtbl.h:106-107 (and the `_entry` form, 129-130), collecting the nodes visited. -/
def forEachIdx (fuel : Nat) (s : Heap) (head size index : Nat) : Option (List Addr) := (masked head size index).bind fun h => Hlist.forEach s h fuel

/-- `bfdev_hashtbl_for_each`, hashtbl.h:153-155 (and the `_entry` form, 178-180), collecting the nodes visited. -/
def forEach (fuel : Nat) (s : Heap) (head size : Nat) : Option (List Addr) :=
  forN size (fun index l => (forEachIdx fuel s head size index).map (l ++ ·)) []

/-- `bfdev_hlist_for_each_safe` of hlist.h:318-320 with the body `bfdev_hashtbl_del(pos)`: the nodes visited and what is left. -/
def drainChain : Nat → Heap → Addr → Option (Heap × List Addr)
  | 0, _, _ => none
  | fuel + 1, s, pos =>
    if pos = 0 then some (s, [])
    else
      let tmp := s.next pos
      (del s pos).bind fun s => (drainChain fuel s tmp).map fun r => (r.1, pos :: r.2)

/-- `bfdev_hashtbl_for_each_safe`, hashtbl.h:166-168, with the body `bfdev_hashtbl_del(pos)`. -/
def drain (fuel : Nat) (s : Heap) (head size : Nat) : Option (Heap × List Addr) :=
  forN size (fun index r => (masked head size index).bind fun h => (drainChain fuel r.1 (r.1.next h)).map fun q => (q.1, r.2 ++ q.2)) (s, [])

end Bfdev.Hashtbl

/-!
Model of `src/skiplist.c`. Nodes are named by addresses; the intrusive list of each level is the list of its nodes (the pointer
implementation of lists is modelled in `Dlist`), and a position in it is `none` for the list head in the skip list or a node. Following the
links of a node on a level it is not linked on, running past the list head, and reading a variable before it is set are the outcome `none`.
The allocator's answer is an argument of the insertion, and so are the values of `rand`.
-/
namespace Bfdev.Skiplist

/-- `bfdev_skip_head_t` and `bfdev_skip_node_t`, skiplist.h:20-30; `live` are the nodes allocated. -/
structure Skip (κ : Type) where
  levels : Nat
  curr : Nat
  lv : Nat → List Nat
  key : Nat → κ
  live : List Nat

/-- The loop of `random_level`, skiplist.c:16-20, from the given level, with at most `fuel` rounds. `RAND_MAX` is 2^31 - 1. -/
def levelLoop (levels : Nat) (rand : Nat → Nat) : Nat → Nat → Nat → Option Nat
  | 0, _, _ => none
  | fuel + 1, i, level =>
    if level < levels then
      if rand i > (2 ^ 31 - 1) / 4 then some level else levelLoop levels rand fuel (i + 1) (level + 1)
    else some level

/-- `random_level`, skiplist.c:10-23. -/
def randomLevel (levels : Nat) (rand : Nat → Nat) : Option Nat := levelLoop levels rand (levels + 1) 0 1

/-- What follows a position in a list. -/
def after (L : List Nat) : Option Nat → Option (List Nat)
  | none => some L
  | some x => if x ∈ L then some ((L.dropWhile (· ≠ x)).drop 1) else none

/-- `->prev`. -/
def prev (L : List Nat) : Option Nat → Option (Option Nat)
  | none => some L.getLast?
  | some x => if x ∈ L then some (L.takeWhile (· ≠ x)).getLast? else none

/-- `bfdev_list_add`: `n` behind a position. -/
def add (L : List Nat) (n : Nat) : Option Nat → Option (List Nat)
  | none => some (n :: L)
  | some x => if x ∈ L then some (L.takeWhile (· ≠ x) ++ x :: n :: (L.dropWhile (· ≠ x)).drop 1) else none

/-- The inner loop on the rest of a level, skiplist.c:43-50 and 84-91: the new value of `end`, and the node and result of the last
comparison. -/
def scan (c : Nat → Int) (stop : Option Nat) : List Nat → Option (Nat × Int) → Option (Option Nat × Option (Nat × Int))
  | [], ret => if stop = none then some (none, ret) else none
  | x :: l, ret =>
    if stop = some x then some (stop, ret)
    else if c x ≥ 0 then some (some x, some (x, c x))
    else scan c stop l (some (x, c x))

/-- The outer loop of `skipnode_find`, skiplist.c:42-58, with the levels still to be searched. -/
def findLoop (lv : Nat → List Nat) (c : Nat → Int) : Nat → Option Nat → Option Nat → Option (Nat × Int) → Option (Option (Nat × Nat))
  | 0, _, _, _ => some none
  | level + 1, list, stop, ret =>
    (after (lv level) list).bind fun l => (scan c stop l ret).bind fun r =>
      match r.2 with
      | none => none
      | some (walk, v) =>
        if v = 0 then some (some (walk, level + 1))
        else (prev (lv level) r.1).bind fun p => findLoop lv c level p r.1 (some (walk, v))

variable {κ : Type}

/-- `skipnode_find`, skiplist.c:25-61: the node and the number of levels below and including the one it was found on. -/
def nodeFind (s : Skip κ) (c : κ → Int) : Option (Option (Nat × Nat)) := findLoop s.lv (fun x => c (s.key x)) s.curr none none none

/-- `bfdev_skiplist_find`, skiplist.c:123-130. -/
def find (s : Skip κ) (c : κ → Int) : Option (Option Nat) := (nodeFind s c).map fun r => r.map (·.1)

def upd {α : Type} (f : Nat → α) (a : Nat) (v : α) : Nat → α := fun x => if x = a then v else f x

/-- The outer loop of `bfdev_skiplist_insert`, skiplist.c:83-97. -/
def insertLoop (c : Nat → Int) (n level : Nat) : Nat → (Nat → List Nat) → Option Nat → Option Nat → Option (Nat × Int) → Option (Nat → List Nat)
  | 0, lv, _, _, _ => some lv
  | count + 1, lv, list, stop, ret =>
    (after (lv count) list).bind fun l => (scan c stop l ret).bind fun r => (prev (lv count) r.1).bind fun p =>
      if count < level then (add (lv count) n p).bind fun l => insertLoop c n level count (upd lv count l) p r.1 r.2
      else insertLoop c n level count lv p r.1 r.2

/-- `bfdev_skiplist_insert`, skiplist.c:63-100. -/
def insert (s : Skip κ) (key : κ) (cmp : κ → κ → Int) (rand : Nat → Nat) (new : Option Nat) : Option (Skip κ × Int) :=
  (randomLevel s.levels rand).bind fun level =>
    let s := { s with curr := max s.curr level }
    match new with
    | none => some (s, -12)
    | some n =>
      let s := { s with key := upd s.key n key, live := n :: s.live }
      (insertLoop (fun x => cmp (s.key x) key) n level s.curr s.lv none none none).map fun lv => ({ s with lv := lv }, 0)

/-- The loop of `bfdev_skiplist_delete`, skiplist.c:114-118. -/
def deleteLoop (n : Nat) : Nat → Skip κ → Option (Skip κ)
  | 0, s => some s
  | level + 1, s =>
    if n ∈ s.lv level then
      let l := (s.lv level).erase n
      deleteLoop n level { s with lv := upd s.lv level l, curr := if l = [] then level else s.curr }
    else none

/-- `bfdev_skiplist_delete`, skiplist.c:102-121. -/
def delete (s : Skip κ) (c : κ → Int) : Option (Skip κ) :=
  (nodeFind s c).bind fun r =>
    match r with
    | none => some s
    | some (n, level) => (deleteLoop n level s).bind fun s => if n ∈ s.live then some { s with live := s.live.erase n } else none

/-- The loop of `skiplist_release`, skiplist.c:139-143: the nodes left, freed in turn. -/
def freeLoop : List Nat → List Nat → Option (List Nat)
  | [], live => some live
  | n :: l, live => if n ∈ live then freeLoop l (live.erase n) else none

/-- `bfdev_skiplist_reset`, skiplist.c:146-157, with the keys handed to the release function. -/
def reset (s : Skip κ) : Option (Skip κ × List κ) :=
  (freeLoop (s.lv 0) s.live).map fun live =>
    ({ s with lv := fun k => if k < s.levels then [] else s.lv k, curr := 0, live := live }, (s.lv 0).map s.key)

/-- `bfdev_skiplist_create`, skiplist.c:159-181. Key fields of nodes not allocated hold anything. -/
def create (levels : Nat) (key : Nat → κ) : Option (Skip κ) := if levels = 0 then none else some ⟨levels, 0, fun _ => [], key, []⟩

end Bfdev.Skiplist

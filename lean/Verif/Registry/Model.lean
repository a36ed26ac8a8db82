import Verif.Dlist.Model
/-!
Model of the two registries of algorithms, `src/textsearch/textsearch.c` and `src/cache/cache.c`, which are the same code for different structures. An
algorithm is the address of its list node; what is in the structure is given by a function of the address and does not change. The list is that of
`Verif.Dlist`. `none` is a loop that does not end or a NULL name compared.
-/
namespace Bfdev.Registry
open Bfdev.Dlist (Addr Heap)

/-- `struct bfdev_ts_algorithm`, textsearch.h:87-129, and `struct bfdev_cache_algo` of cache.h: the name and which of the callbacks are set. -/
structure Algo where
  name : Option String
  callbacks : List Bool

/-- The check textsearch.c:63-65 and cache.c:372-374: everything is set. -/
def Algo.complete (a : Algo) : Bool := a.name.isSome && a.callbacks.all id

/-- `textsearch_algorithm_find`, textsearch.c:13-24, and `cache_algorithm_find`, cache.c:15-26, from the node `walk` on; the inner result is NULL or the node. -/
def findLoop (algos : Addr → Algo) (s : Heap) (head : Addr) (name : String) : Nat → Addr → Option (Option Addr)
  | 0, _ => none
  | fuel + 1, walk =>
    if walk = head then some none
    else match (algos walk).name with
      | none => none
      | some n => if n = name then some (some walk) else findLoop algos s head name fuel (s.next walk)
def find (algos : Addr → Algo) (fuel : Nat) (s : Heap) (head : Addr) (name : String) : Option (Option Addr) := findLoop algos s head name fuel (s.next head)

/-- `textsearch_algorithm_exist`, textsearch.c:26-37, and `cache_algorithm_exist`, cache.c:28-39. -/
def existLoop (s : Heap) (head algo : Addr) : Nat → Addr → Option Bool
  | 0, _ => none
  | fuel + 1, walk => if walk = head then some false else if walk = algo then some true else existLoop s head algo fuel (s.next walk)
def exist (fuel : Nat) (s : Heap) (head algo : Addr) : Option Bool := existLoop s head algo fuel (s.next head)

/-- `bfdev_textsearch_register`, textsearch.c:60-74, and `bfdev_cache_register`, cache.c:369-383. -/
def register (algos : Addr → Algo) (fuel : Nat) (s : Heap) (head algo : Addr) : Option (Heap × Int) :=
  if !(algos algo).complete then some (s, -22)
  else match (algos algo).name with
    | none => none
    | some name => (find algos fuel s head name).map fun r => if r.isSome then (s, -114) else (Dlist.add s head algo, 0)

/-- `bfdev_textsearch_unregister`, textsearch.c:76-85, and `bfdev_cache_unregister`, cache.c:385-394. -/
def unregister (fuel : Nat) (s : Heap) (head algo : Addr) : Option (Heap × Int) :=
  (exist fuel s head algo).map fun r => if !r then (s, -2) else (Dlist.del s algo, 0)

/-- `bfdev_textsearch_create`, textsearch.c:39-58, and the lookup of `bfdev_cache_create`, cache.c:319-325: the algorithm whose constructor is called; `prepare` tells
whether that succeeds. -/
def create (algos : Addr → Algo) (fuel : Nat) (s : Heap) (head : Addr) (name : String) (prepare : Addr → Bool) : Option (Option Addr) :=
  (find algos fuel s head name).map fun r => r.bind fun a => if prepare a then some a else none

inductive Op where
  | register (a : Addr)
  | unregister (a : Addr)

def Op.run (algos : Addr → Algo) (fuel : Nat) (head : Addr) (s : Heap) : Op → Option (Heap × Int)
  | .register a => Registry.register algos fuel s head a
  | .unregister a => Registry.unregister fuel s head a

/-- A history: memory at the end and the results. -/
def runAll (algos : Addr → Algo) (fuel : Nat) (head : Addr) (s : Heap) : List Op → Option (Heap × List Int)
  | [] => some (s, [])
  | op :: ops => (op.run algos fuel head s).bind fun r => (runAll algos fuel head r.1 ops).map fun q => (q.1, r.2 :: q.2)

end Bfdev.Registry

import Verif.Registry.Model
/-!
Specification of a registry: the list of the registered algorithms.
-/
namespace Bfdev.Registry
open Bfdev.Dlist (Addr)

/-- What a call does to the registry and returns: −22 (EINVAL) for an incomplete algorithm, −114 (EALREADY) for a name that is taken, −2 (ENOENT) for
an algorithm that is not there. -/
def Op.apply (algos : Addr → Algo) (L : List Addr) : Op → List Addr × Int
  | .register a =>
    if (algos a).name = none ∨ false ∈ (algos a).callbacks then (L, -22)
    else if ∃ b ∈ L, (algos b).name = (algos a).name then (L, -114)
    else (a :: L, 0)
  | .unregister a => if a ∈ L then (L.filter (· ≠ a), 0) else (L, -2)

def applyAll (algos : Addr → Algo) (L : List Addr) : List Op → List Addr × List Int
  | [] => (L, [])
  | op :: ops => ((applyAll algos (op.apply algos L).1 ops).1, (op.apply algos L).2 :: (applyAll algos (op.apply algos L).1 ops).2)

/-- The nodes a history handles. -/
def Op.node : Op → Addr
  | .register a => a
  | .unregister a => a

end Bfdev.Registry

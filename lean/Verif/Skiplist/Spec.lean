import Verif.Skiplist.Model
/-! What a user of the skip list relies on. -/
namespace Bfdev.Skiplist

variable {κ : Type}

/-- The comparison function is a total preorder. -/
structure Order (cmp : κ → κ → Int) : Prop where
  total : ∀ a b, 0 ≤ cmp a b ↔ cmp b a ≤ 0
  trans : ∀ a b c, cmp a b ≤ 0 → cmp b c ≤ 0 → cmp a c ≤ 0

/-- The search function agrees with the order: it is negative before what is searched, positive behind it. -/
def Agrees (cmp : κ → κ → Int) (c : κ → Int) : Prop := ∀ a b, cmp a b ≤ 0 → (c b < 0 → c a < 0) ∧ (c b ≤ 0 → c a ≤ 0)

inductive Op (κ : Type) where
  | insert (key : κ) (rand : Nat → Nat) (new : Option Nat)
  | delete (c : κ → Int)
  | reset

/-- What the caller and the allocator owe: a node handed out is not in use, search functions agree with the order. An insertion may only be
refused memory if the level drawn for it is not above all others; see `refused_violated`. -/
def ok (cmp : κ → κ → Int) (s : Skip κ) : Op κ → Prop
  | .insert _ rand none => ∀ level, randomLevel s.levels rand = some level → level ≤ s.curr
  | .insert _ _ (some n) => n ∉ s.live
  | .delete c => Agrees cmp c
  | .reset => True

def step (cmp : κ → κ → Int) (s : Skip κ) : Op κ → Option (Skip κ)
  | .insert key rand new => (insert s key cmp rand new).map (·.1)
  | .delete c => delete s c
  | .reset => (reset s).map (·.1)

/-- The skip lists that histories lead to. -/
inductive Reach (cmp : κ → κ → Int) : Skip κ → Prop
  | new {levels key s} : create levels key = some s → Reach cmp s
  | step {s op s'} : Reach cmp s → ok cmp s op → step cmp s op = some s' → Reach cmp s'

/-- The keys in the order of the lowest level. -/
def Skip.items (s : Skip κ) : List κ := (s.lv 0).map s.key

/-- Every level is an ordered part of the one below. -/
structure Sound (cmp : κ → κ → Int) (s : Skip κ) : Prop where
  levels : ∀ k, (s.lv (k + 1)).Sublist (s.lv k)
  sorted : s.items.Pairwise fun a b => cmp a b ≤ 0
  nodes : (s.lv 0).Nodup ∧ ∀ n, n ∈ s.lv 0 ↔ n ∈ s.live

end Bfdev.Skiplist

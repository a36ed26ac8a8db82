import Verif.Cache.Model
/-! What a user of the cache relies on. -/
namespace Bfdev.Cache
variable {σ : Type}

/-- `n` is a node of the cache. -/
def In (c : Cache σ) (n : Nat) : Prop := 1 ≤ n ∧ n ≤ c.size
instance (c : Cache σ) (n : Nat) : Decidable (In c n) := inferInstanceAs (Decidable (_ ∧ _))

/-- The user data `d` matches the tag `t` and no other. -/
def Names (ops : Ops) (d t : Nat) : Prop := ∀ t', ops.find d t' = 0 ↔ t' = t

/-- What the user does. After `obtain` returns a node the user stores data that names the tag; data can be replaced by data with the same
name at any time. -/
inductive Op where
  | obtain (tag : Nat) (change uncommitted : Bool) (d : Nat)
  | put (n : Nat)
  | set (n tag d : Nat)
  | del (n : Nat)
  | commit
  | fill (n d : Nat)

/-- What the user knows from the past: outstanding references of each node, when it was last released or renamed, how often its current
tag was hit or renamed, and the number of releases so far. -/
structure Past where
  refs : Nat → Nat
  stamp : Nat → Nat
  hits : Nat → Nat
  clock : Nat

def Past.none : Past := ⟨fun _ => 0, fun _ => 0, fun _ => 0, 0⟩
def Past.ref (g : Past) (n : Nat) : Past := { g with refs := upd g.refs n (g.refs n + 1) }
def Past.unref (g : Past) (n : Nat) : Past := { g with refs := upd g.refs n (g.refs n - 1) }
def Past.hit (g : Past) (n : Nat) : Past := { g with hits := upd g.hits n (g.hits n + 1) }
def Past.fresh (g : Past) (n : Nat) : Past := { g with hits := upd g.hits n 0 }
def Past.release (g : Past) (n : Nat) : Past := { g with stamp := upd g.stamp n g.clock, clock := g.clock + 1 }

/-- The node returned was handed a new tag. -/
def Fresh (c : Cache σ) (n tag : Nat) : Prop := c.status n = .freed ∨ (c.status n = .managed ∧ c.tag n ≠ tag)
instance (c : Cache σ) (n tag : Nat) : Decidable (Fresh c n tag) := inferInstanceAs (Decidable (_ ∨ _))

/-- What `obtain` returning `n` means, `c` being the cache before the call. -/
def Past.obtained (g : Past) (c : Cache σ) (tag n : Nat) : Past :=
  if n = 0 then g else if Fresh c n tag then (g.ref n).fresh n else if c.status n = .pending then g.ref n else (g.ref n).hit n

/-- An operation on the cache and on what is known of the past. -/
def step (a : Algo σ) (ops : Ops) (c : Cache σ) (g : Past) : Op → Option (Cache σ × Past)
  | .obtain tag change unc d => (Cache.obtain a ops c tag change unc).map fun r =>
      (if r.2 = 0 then r.1 else { r.1 with data := upd r.1.data r.2 d }, g.obtained c tag r.2)
  | .put n => (Cache.put a c n).map fun r =>
      (r.1, if c.status n ≠ .busy then g else if g.refs n = 1 then (g.unref n).release n else g.unref n)
  | .set n tag d => (Cache.set a ops c n tag).map fun r =>
      if c.status n ≠ .managed then (r.1, g) else ({ r.1 with data := upd r.1.data n d }, (g.hit n).release n)
  | .del n => (Cache.del a c n).map fun r => (r.1, g)
  | .commit => some (committed c, g)
  | .fill n d => some ({ c with data := upd c.data n d }, g)

/-- What the user owes: data that names the tag, nodes of the cache, no renaming to a tag that is in the cache. -/
def ok (ops : Ops) (c : Cache σ) : Op → Prop
  | .obtain tag _ _ d => Names ops d tag
  | .put n => In c n
  | .set n tag d => In c n ∧ Names ops d tag ∧ ∀ m, In c m → c.status m ≠ .freed → c.tag m ≠ tag
  | .del n => In c n
  | .commit => True
  | .fill n d => In c n ∧ c.status n ≠ .freed ∧ Names ops d (c.tag n)

/-- `Reach c g k`: `c` and `g` after `k` operations on a new cache with room for `size` nodes. -/
inductive Reach (a : Algo σ) (ops : Ops) (s0 : σ) (size : BitVec 64) (maxpend : Nat) : Cache σ → Past → Nat → Prop
  | new {c} : create s0 size maxpend = some (some c) → Reach a ops s0 size maxpend c .none 0
  | step {c g k op c' g'} : Reach a ops s0 size maxpend c g k → ok ops c op → step a ops c g op = some (c', g') →
      Reach a ops s0 size maxpend c' g' (k + 1)

/-- The number of nodes with a property. -/
def number (c : Cache σ) (p : Nat → Bool) : Nat := (List.range' 1 c.size).countP p

/-- The books are right. -/
structure Sound (ops : Ops) (c : Cache σ) (g : Past) : Prop where
  /-- Reference counts are the outstanding references, which only nodes that are in use or pending have. -/
  refcnt : ∀ n, In c n → c.refcnt n = g.refs n
  held : ∀ n, In c n → (0 < g.refs n ↔ c.status n = .busy ∨ c.status n = .pending)
  /-- No two resident nodes carry the same tag. -/
  unique : ∀ n m, In c n → In c m → c.status n ≠ .freed → c.status m ≠ .freed → c.tag n = c.tag m → n = m
  /-- Searching for a tag finds the committed node that carries it. -/
  found : ∀ tag, ∃ n, find ops c tag = some n ∧
    ∀ m, m ≠ 0 → (m = n ↔ In c m ∧ (c.status m = .busy ∨ c.status m = .managed) ∧ c.tag m = tag)
  /-- The numbers add up. -/
  used : c.used = number c fun n => 0 < g.refs n
  pending : c.pending = number c fun n => c.status n = .pending
  capacity : c.freed.length + c.used + number c (fun n => c.status n = .managed) = c.size

end Bfdev.Cache

import Verif.Memalloc.Model
/-! What a user of the pool allocator relies on. -/
namespace Bfdev.Memalloc

inductive Op where
  | alloc (n : Nat)
  | free (p : Nat)
  | realloc (p n : Nat)
  | write (p i : Nat) (v : BitVec 8)

/-- The blocks the user holds: address and size asked for. -/
abbrev Live := List (Nat × Nat)

/-- What the user owes: only blocks that are held are written, resized and freed, and written within the size asked for; sizes are not
within 31 of the largest number. -/
def ok (L : Live) : Op → Prop
  | .alloc n => n + 31 < 2 ^ 64
  | .free p => ∃ r, (p, r) ∈ L
  | .realloc p n => (∃ r, (p, r) ∈ L) ∧ n + 31 < 2 ^ 64
  | .write p i _ => ∃ r, (p, r) ∈ L ∧ i < r

/-- An operation on the pool and on what the user holds. -/
def step (find : Find) (s : Pool) (L : Live) : Op → Option (Pool × Live)
  | .alloc n => (alloc find s n).map fun r => (r.1, if r.2 = 0 then L else (r.2, n) :: L)
  | .free p => (free s p).map fun s => (s, L.filter fun x => x.1 ≠ p)
  | .realloc p n => (realloc find s p n).map fun r => (r.1, if r.2 = 0 then L else (r.2, n) :: L.filter fun x => x.1 ≠ p)
  | .write p i v => some ({ s with mem := fun x => if x = p + i then some v else s.mem x }, L)

/-- A search function that returns only free chunks that are large enough. The three of the library are, and the user may supply others. -/
def Fits (find : Find) : Prop := ∀ s n a, find s n = some a → a ∈ s.free ∧ n ≤ size (s.usize a)

/-- A search function that finds something whenever a free chunk is large enough, for requests of at least one byte. -/
def Finds (find : Find) : Prop :=
  ∀ s n, 0 < n → (∀ a ∈ s.free, size (s.usize a) < 2 ^ 64 - 1) → find s n = none → ∀ a ∈ s.free, size (s.usize a) < n

/-- The pools and blocks that histories lead to. -/
inductive Reach (find : Find) (mem : Nat → Option (BitVec 8)) (base total : Nat) : Pool → Live → Prop
  | new : Reach find mem base total (init mem base total) []
  | step {s L op s' L'} : Reach find mem base total s L → ok L op → step find s L op = some (s', L') → Reach find mem base total s' L'

/-- The block an operation is about. -/
def Op.target : Op → Option Nat
  | .alloc _ => none
  | .free p => some p
  | .realloc p _ => some p
  | .write p _ _ => some p

/-- The bytes from `lo`, `len` of them, are free: no block held reaches into them with its header of 40 bytes or the bytes it was granted. -/
def Gap (s : Pool) (L : Live) (lo len : Nat) : Prop := ∀ x ∈ L, lo + len ≤ x.1 - 40 ∨ x.1 + size (s.usize (x.1 - 40)) ≤ lo

/-- The blocks held lie inside the pool, are apart from each other and have the alignment of the pool up to that of a pointer. -/
structure Sound (base total : Nat) (L : Live) : Prop where
  inside : ∀ x ∈ L, base < x.1 ∧ x.1 + x.2 ≤ base + total
  apart : L.Pairwise fun x y => x.1 + x.2 < y.1 ∨ y.1 + y.2 < x.1
  aligned : ∀ x ∈ L, x.1 % 8 = base % 8

end Bfdev.Memalloc

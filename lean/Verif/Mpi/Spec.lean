import Verif.Mpi.Model
/-! What the big integers denote. -/
namespace Bfdev.Mpi

/-- The number written by limbs in base 2^64, least significant first. -/
def val : List Nat → Nat
  | [] => 0
  | x :: l => x + W64 * val l

/-- The integer an object denotes. -/
def value (o : Mpi) : Int := if o.plus then (val o.limbs : Int) else -(val o.limbs : Int)

/-- Every limb is a machine word. -/
def Limbs (l : List Nat) : Prop := ∀ x, x ∈ l → x < W64

instance (l : List Nat) : Decidable (Limbs l) := inferInstanceAs (Decidable (∀ x, x ∈ l → x < W64))

/-- A proper object: machine words, no leading zero limb, and no more limbs than the block holds. -/
structure Wf (o : Mpi) : Prop where
  words : Limbs o.limbs
  top : o.limbs.getLast? ≠ some 0
  room : o.limbs.length ≤ o.cap

instance (o : Mpi) : Decidable (Wf o) :=
  decidable_of_iff (Limbs o.limbs ∧ o.limbs.getLast? ≠ some 0 ∧ o.limbs.length ≤ o.cap) ⟨fun h => ⟨h.1, h.2.1, h.2.2⟩, fun h => ⟨h.1, h.2, h.3⟩⟩

/-- The object is not a zero with a minus sign. -/
def NoMinusZero (o : Mpi) : Prop := o.limbs = [] → o.plus = true

/-- Adding `a` and `b` carries into limb `i`. -/
def CarryInto (a b : List Nat) (i : Nat) : Prop := W64 ^ i ≤ val (a.take i) + val (b.take i)

/-- Subtracting `b` from `a` borrows from limb `i`. -/
def BorrowInto (a b : List Nat) (i : Nat) : Prop := val (a.take i) < val (b.take i)

instance (a b : List Nat) (i : Nat) : Decidable (CarryInto a b i) := inferInstanceAs (Decidable (_ ≤ _))
instance (a b : List Nat) (i : Nat) : Decidable (BorrowInto a b i) := inferInstanceAs (Decidable (_ < _))

/-- No carry arrives at a limb of `b` that is 2^64 - 1 (while `a` still has limbs). -/
def NoLostCarry (a b : List Nat) : Prop := ∀ i, i < a.length → i < b.length → b.getD i 0 = W64 - 1 → ¬ CarryInto a b i

/-- No borrow arrives at a limb of `b` that is 2^64 - 1. -/
def NoLostBorrow (a b : List Nat) : Prop := ∀ i, i < a.length → i < b.length → b.getD i 0 = W64 - 1 → ¬ BorrowInto a b i

/-- No limb below the leading one is 2^64 - 1. -/
def NoMax (b : List Nat) : Prop := ∀ i, i + 1 < b.length → b.getD i 0 ≠ W64 - 1

/-- What the long division needs of a divisor: at least two limbs, the top bit set, and no limb below the top that is 2^64 - 1. -/
structure Normal (b : List Nat) : Prop where
  words : Limbs b
  two : 2 ≤ b.length
  high : W64 ≤ 2 * b.getD (b.length - 1) 0
  nomax : NoMax b

/-- The operand with more limbs, and the other one. -/
def longer (S : Store) (a b : Nat) : Nat := if (S a).limbs.length < (S b).limbs.length then b else a
def shorter (S : Store) (a b : Nat) : Nat := if (S a).limbs.length < (S b).limbs.length then a else b

/-- The result is not an operand `y` of several limbs whose block is too small for `n` limbs. -/
def Room (S : Store) (d y n : Nat) : Prop := d = y → 2 ≤ (S y).limbs.length → n ≤ (S d).cap

/-- The magnitudes of `x` and `y` can be added into `d`. -/
def AddSafe (S : Store) (d x y : Nat) : Prop :=
  NoLostCarry (S x).limbs (S y).limbs ∧ Room S d y (max (S x).limbs.length (S y).limbs.length + 1)

/-- The magnitude of `y` can be subtracted from that of `x` into `d`. -/
def SubSafe (S : Store) (d x y : Nat) : Prop :=
  NoLostBorrow (S x).limbs (S y).limbs ∧ Room S d y (S x).limbs.length

/-- The call returns, touches no object but `d`, and either succeeds and leaves `v` in `d` as a proper object, or reports missing memory
and changes nothing; it succeeds when the allocator is willing and `n` limbs fit into the address space. -/
def Yields (S : Store) (g : Grant) (d n : Nat) (r : Res) (v : Int) : Prop :=
  ∃ S' c, r = some (S', c) ∧ (∀ i, i ≠ d → S' i = S i) ∧ (c = .ok ∧ Wf (S' d) ∧ value (S' d) = v ∨ c = .nomem ∧ S' = S) ∧
    (g.obj d = true → n ≤ 2 ^ 60 → c = .ok)

/-- The call returns, touches no objects but `q` and `r`, and either succeeds and leaves `vq` in `q` and `vr` in `r` as proper objects, or
reports missing memory; it succeeds when the allocator is willing and `n` limbs fit into the address space. -/
def YieldsTwo (S : Store) (g : Grant) (q r n : Nat) (res : Res) (vq vr : Int) : Prop :=
  ∃ S' c, res = some (S', c) ∧ (∀ i, i ≠ q → i ≠ r → S' i = S i) ∧
    (c = .ok ∧ (Wf (S' q) ∧ value (S' q) = vq) ∧ (Wf (S' r) ∧ value (S' r) = vr) ∨ c = .nomem) ∧
    (g.obj q = true → g.obj r = true → g.buf = true → n ≤ 2 ^ 60 → c = .ok)

end Bfdev.Mpi

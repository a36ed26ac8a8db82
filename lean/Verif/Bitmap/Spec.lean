import Verif.Bitmap.Model
/-!
Specification vocabulary for bitmaps: a bitmap at word `s` of memory is the sequence of bits `bitOf m s 0, bitOf m s 1, …`.
-/
namespace Bfdev.Bitmap

/-- Bit `i` of the bitmap that starts at word `s`. -/
def bitOf (m : Mem) (s i : Nat) : Bool := ((m[s + i / 64]?).getD 0).getLsbD (i % 64)
/-- Words needed for `bits` bits. -/
def words (bits : Nat) : Nat := (bits + 63) / 64
/-- The bitmap lies inside memory. -/
def Inside (m : Mem) (s bits : Nat) : Prop := s + words bits ≤ m.length
/-- Same memory outside the words of the bitmap at `d`. -/
def SameOutside (m m' : Mem) (d bits : Nat) : Prop := m'.length = m.length ∧ ∀ a, (a < d ∨ d + words bits ≤ a) → m'[a]? = m[a]?
/-- Memory changed from `m` to `m'` by giving the bitmap at `d` the first `bits` bits `f 0, f 1, …`; the rest of its last word is zero. -/
def Writes (m m' : Mem) (d bits : Nat) (f : Nat → Bool) : Prop :=
  SameOutside m m' d bits ∧ ∀ i, i < 64 * words bits → bitOf m' d i = (decide (i < bits) && f i)
/-- The destination is the source itself, or does not overlap it. -/
def NoOverlap (d s bits : Nat) : Prop := d = s ∨ d + words bits ≤ s ∨ s + words bits ≤ d

/-- Bit `i` of the bitmap when every word is read with its bytes in opposite order (`swap`). -/
def bitOrd (swap : Bool) (m : Mem) (s i : Nat) : Bool := if swap then bitOf m s (64 * (i / 64) + (56 - 8 * (i % 64 / 8) + i % 8)) else bitOf m s i

/-- `r` is the first position in `lo ..< bits` with `p`, or `bits` if there is none. -/
def FirstAt (p : Nat → Bool) (lo bits r : Nat) : Prop :=
  (lo ≤ r ∧ r < bits ∧ p r = true ∧ ∀ j, lo ≤ j → j < r → p j = false) ∨ (r = bits ∧ ∀ j, lo ≤ j → j < bits → p j = false)
/-- `r` is the last position in `0 ..< hi` with `p`, or `bits` if there is none. -/
def LastAt (p : Nat → Bool) (hi bits r : Nat) : Prop :=
  (r < hi ∧ p r = true ∧ ∀ j, r < j → j < hi → p j = false) ∨ (r = bits ∧ ∀ j, j < hi → p j = false)

end Bfdev.Bitmap

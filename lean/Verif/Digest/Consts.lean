import Verif.Digest.Sha2
/-!
The constants of SHA-2 and where they come from.
-/
namespace Bfdev.Digest
open Spec (IsPrime RootBits)

/-- The first 64 primes. -/
def primes : List Nat :=
  [2, 3, 5, 7, 11, 13, 17, 19, 23, 29, 31, 37,
   41, 43, 47, 53, 59, 61, 67, 71, 73, 79, 83, 89,
   97, 101, 103, 107, 109, 113, 127, 131, 137, 139, 149, 151,
   157, 163, 167, 173, 179, 181, 191, 193, 197, 199, 211, 223,
   227, 229, 233, 239, 241, 251, 257, 263, 269, 271, 277, 281,
   283, 293, 307, 311]
/-- `⌊p^(1/3) 2^32⌋` for them. -/
def cubeRoots : List Nat :=
  [5411319704, 6194414737, 7344290767, 8215976869, 9551921755, 10098905585, 11043570340, 11460697813, 12214315672, 13195500289, 13492127166, 14311783875,
   14809980276, 15046980094, 15499789991, 16133124468, 16720292289, 16907126662, 17444216262, 17784676812, 17950125167, 18429019306, 18734950876, 19175934170,
   19734090066, 20001703533, 20132865992, 20390182855, 20516441075, 20764397895, 21588763473, 21813078375, 22141143685, 22248366392, 22769593852, 22871018771,
   23170020180, 23461497531, 23651862830, 23931792517, 24205322401, 24295138891, 24734567280, 24820601251, 24990902297, 25075189284, 25569408389, 26045227120,
   26200031510, 26276752392, 26428864332, 26653801653, 26727943347, 27092625994, 27306805839, 27517677555, 27725365998, 27793908591, 27997534228, 28131656200,
   28198240250, 28526537963, 28973835255, 29099129074]
/-- `⌊p^(1/2) 2^32⌋` for the first eight. -/
def squareRoots : List Nat :=
  [6074000999, 7439101573, 9603838834, 11363415354, 14244795007, 15485724812, 17708603819, 18721328409]
/-- `⌊p^(1/2) 2^64⌋` for the next eight. -/
def longRoots : List Nat :=
  [88467476731178360536, 99338756991957652743, 102707124263845944599, 112207163657561200953, 118116794080090393393, 120963390236882638097, 126464505871347584935, 134294323956039700388]

/-- Trial division. -/
def trial (n : Nat) : Bool := decide (2 ≤ n) && (List.range n).all fun d => d == 0 || d == 1 || n % d != 0

theorem trial_iff (n : Nat) : trial n = true ↔ IsPrime n := by
  unfold trial IsPrime
  rw [Bool.and_eq_true, decide_eq_true_iff, List.all_eq_true]
  constructor
  · intro ⟨h1, h2⟩
    refine ⟨h1, fun d hd => ?_⟩
    have hle := Nat.le_of_dvd (by omega) hd
    by_cases he : d = n
    · exact Or.inr he
    · have := h2 d (List.mem_range.mpr (by omega))
      simp only [Bool.or_eq_true, beq_iff_eq, bne_iff_ne] at this
      rcases this with (h | h) | h
      · subst h
        rw [Nat.zero_dvd] at hd
        omega
      · exact Or.inl h
      · exact absurd (Nat.mod_eq_zero_of_dvd hd) h
  · intro ⟨h1, h2⟩
    refine ⟨h1, fun d hd => ?_⟩
    rw [List.mem_range] at hd
    simp only [Bool.or_eq_true, beq_iff_eq, bne_iff_ne]
    by_cases h : n % d = 0
    · rcases h2 d (Nat.dvd_of_mod_eq_zero h) with h | h
      · exact Or.inl (Or.inr h)
      · omega
    · exact Or.inr h

theorem primes_ok : ∀ n, n < 312 → (n ∈ primes ↔ trial n = true) := by decide +kernel
theorem primes_lt : ∀ n ∈ primes, n < 312 := by decide +kernel
theorem primes_sorted : primes.Pairwise (· < ·) := by decide +kernel

theorem cube_ok : ∀ t, t < 64 → (cubeRoots.getD t 0) ^ 3 ≤ primes.getD t 0 * (2 ^ 32) ^ 3 ∧ primes.getD t 0 * (2 ^ 32) ^ 3 < (cubeRoots.getD t 0 + 1) ^ 3 ∧
    sha2Kf t = BitVec.ofNat 32 (cubeRoots.getD t 0) := by decide +kernel
theorem square_ok : ∀ t, t < 8 → (squareRoots.getD t 0) ^ 2 ≤ primes.getD t 0 * (2 ^ 32) ^ 2 ∧ primes.getD t 0 * (2 ^ 32) ^ 2 < (squareRoots.getD t 0 + 1) ^ 2 ∧
    sha256Iv.getD t 0 = BitVec.ofNat 32 (squareRoots.getD t 0) := by decide +kernel
theorem long_ok : ∀ t, t < 8 → (longRoots.getD t 0) ^ 2 ≤ primes.getD (8 + t) 0 * (2 ^ 64) ^ 2 ∧ primes.getD (8 + t) 0 * (2 ^ 64) ^ 2 < (longRoots.getD t 0 + 1) ^ 2 ∧
    sha224Iv.getD t 0 = BitVec.ofNat 32 (longRoots.getD t 0) := by decide +kernel

theorem constants_ok : Spec.Constants sha2Kf sha224Iv sha256Iv :=
  ⟨rfl, rfl, primes, rfl, primes_sorted, fun n hn => (primes_ok n hn).trans (trial_iff n), primes_lt, fun t ht => ⟨_, cube_ok t ht⟩, fun t ht => ⟨_, square_ok t ht⟩,
    fun t ht => ⟨_, long_ok t ht⟩⟩

end Bfdev.Digest

import Verif.Digest.Words
set_option linter.unusedSimpArgs false
/-!
The SHA-1 transform, and the loop over blocks shared with SHA-2.
-/
namespace Bfdev.Digest
open Spec (blocks pad beWord leWord byte)
open Scan (rol ror)

theorem rol_eq (x : W32) (n : Nat) (h : 0 < n ∧ n < 32) : rol 32 x n = x.rotateLeft n := by
  unfold rol BitVec.rotateLeft BitVec.rotateLeftAux
  rw [Nat.mod_eq_of_lt h.2, Nat.mod_eq_of_lt (show 32 - n < 32 by omega)]

theorem ror_eq (x : W32) (n : Nat) (h : 0 < n ∧ n < 32) : ror 32 x n = x.rotateRight n := by
  unfold ror BitVec.rotateRight BitVec.rotateRightAux
  rw [Nat.mod_eq_of_lt h.2, Nat.mod_eq_of_lt (show 32 - n < 32 by omega)]

theorem ror2_eq (x : W32) : ror 32 x 2 = x.rotateLeft 30 := by
  show x >>> 2 ||| x <<< 30 = x <<< 30 ||| x >>> 2
  exact BitVec.or_comm _ _

theorem ch_eq (x y z : W32) : ((y ^^^ z) &&& x) ^^^ z = Spec.ch x y z := by
  unfold Spec.ch
  ext i hi
  simp only [BitVec.getElem_xor, BitVec.getElem_and, BitVec.getElem_not]
  cases x[i] <;> cases y[i] <;> cases z[i] <;> rfl

theorem ch2_eq (x y z : W32) : z ^^^ (x &&& (y ^^^ z)) = Spec.ch x y z := by
  rw [← ch_eq, BitVec.xor_comm z, BitVec.and_comm x]

theorem maj_add (x y z : W32) : (x &&& y) + (z &&& (x ^^^ y)) = Spec.maj x y z := by
  rw [BitVec.add_eq_or_of_and_eq_zero]
  · unfold Spec.maj
    ext i hi
    simp only [BitVec.getElem_xor, BitVec.getElem_and, BitVec.getElem_or]
    cases x[i] <;> cases y[i] <;> cases z[i] <;> rfl
  · ext i hi
    simp only [BitVec.getElem_xor, BitVec.getElem_and, BitVec.getElem_zero]
    cases x[i] <;> cases y[i] <;> cases z[i] <;> rfl

theorem maj_or (x y z : W32) : (x &&& y) ||| (z &&& (x ||| y)) = Spec.maj x y z := by
  unfold Spec.maj
  ext i hi
  simp only [BitVec.getElem_xor, BitVec.getElem_and, BitVec.getElem_or]
  cases x[i] <;> cases y[i] <;> cases z[i] <;> rfl

/-- The block of data that a transform reads. -/
theorem byte_blk (d : List Byte) (p i : Nat) (hi : i < 64) : byte ((d.drop p).take 64) i = d.getD (p + i) 0 := by
  unfold byte
  rw [List.getD_eq_getElem?_getD, List.getD_eq_getElem?_getD, List.getElem?_take, if_pos hi, List.getElem?_drop]

theorem src_ok {d : List Byte} {p : Nat} (h : p + 64 ≤ d.length) {t : Nat} (ht : t < 16) :
    Swab.getBe32 d (p + 4 * t) = some (beWord ((d.drop p).take 64) t) := by
  rw [getBe32_ok (by omega)]
  unfold beWord
  rw [byte_blk _ _ _ (by omega), byte_blk _ _ _ (by omega), byte_blk _ _ _ (by omega), byte_blk _ _ _ (by omega)]
  rfl

theorem ws_set {b : List (Option W32)} {i : Nat} (h : i < b.length) (v : W32) (j : Nat) : ws (b.set i (some v)) j = if j = i then some v else ws b j := by
  unfold ws
  by_cases hj : j = i
  · rw [hj, if_pos rfl, List.getElem?_set_self h]; rfl
  · rw [if_neg hj, List.getElem?_set_ne (by omega)]

/-- After `t` rounds: the registers, and the last sixteen words of the schedule. -/
def Sha1Inv (blk : List Byte) (s : R5) (t : Nat) (x : R5 × List (Option W32)) : Prop :=
  x.2.length = 16 ∧ x.1 = Spec.sha1Rounds blk s t ∧ ∀ j, j < t → t ≤ j + 16 → ws x.2 (j % 16) = some (Spec.sha1W blk j)

theorem sha1Round_ok {blk : List Byte} {s : R5} {t : Nat} {x : R5 × List (Option W32)} (hx : Sha1Inv blk s t x)
    {func : Nat → List (Option W32) → Option W32} {const : W32} {exp : W32 → W32 → W32 → W32} (hf : func t x.2 = some (Spec.sha1W blk t))
    (hc : const = Spec.sha1K t) (he : ∀ a b c, exp a b c = Spec.sha1F t a b c) :
    ∃ x', sha1Round func const exp t x = some x' ∧ Sha1Inv blk s (t + 1) x' := by
  obtain ⟨h1, h2, h3⟩ := hx
  obtain ⟨r, b⟩ := x
  dsimp only at h1 h2 h3 hf
  refine ⟨(⟨r.E + (Spec.sha1W blk t + rol 32 r.A 5 + exp r.B r.C r.D + const), r.A, ror 32 r.B 2, r.C, r.D⟩, b.set (t % 16) (some (Spec.sha1W blk t))), ?_, ?_, ?_, ?_⟩
  · unfold sha1Round
    simp only [Option.bind_eq_bind]
    rw [hf, Option.bind_some, setIdx_some _ (by omega)]
    rfl
  · rw [List.length_set]; exact h1
  · show _ = Spec.sha1Rounds blk s (t + 1)
    rw [Spec.sha1Rounds, ← h2]
    dsimp only
    have hA : ∀ a b c d e : W32, e + (a + b + c + d) = b + c + e + d + a := by
      intro a b c d e
      ac_rfl
    rw [he, hc, rol_eq _ _ (by omega), hA, ror2_eq]
  · intro j hj1 hj2
    show ws (b.set _ _) _ = _
    rw [ws_set (by omega)]
    by_cases hj : j = t
    · rw [hj, if_pos rfl]
    · rw [if_neg (by omega), h3 j (by omega) (by omega)]

theorem sha1Mix_ok {blk : List Byte} {s : R5} {t : Nat} {x : R5 × List (Option W32)} (hx : Sha1Inv blk s t x) (ht : 16 ≤ t) :
    sha1Mix t x.2 = some (Spec.sha1W blk t) := by
  have h3 := hx.2.2
  have g : ∀ k j, j < t → t ≤ j + 16 → k = j % 16 → ws x.2 k = some (Spec.sha1W blk j) := by
    intro k j h1 h2 h4
    rw [h4]
    exact h3 j h1 h2
  unfold sha1Mix
  rw [g ((t + 13) % 16) (t - 3) (by omega) (by omega) (by omega), g ((t + 8) % 16) (t - 8) (by omega) (by omega) (by omega),
    g ((t + 2) % 16) (t - 14) (by omega) (by omega) (by omega), g (t % 16) (t - 16) (by omega) (by omega) (by omega)]
  simp only [Option.bind_eq_bind, Option.bind_some, Option.pure_def]
  conv => rhs; rw [Spec.sha1W, if_neg (by omega)]
  rw [rol_eq _ _ (by omega)]

/-- One of the five loops. -/
theorem sha1Phase {blk : List Byte} {s : R5} {lo n : Nat} {x : R5 × List (Option W32)} (hx : Sha1Inv blk s lo x)
    {func : Nat → List (Option W32) → Option W32} {const : W32} {exp : W32 → W32 → W32 → W32}
    (hf : ∀ t y, lo ≤ t → t < lo + n → Sha1Inv blk s t y → func t y.2 = some (Spec.sha1W blk t))
    (hc : ∀ t, lo ≤ t → t < lo + n → const = Spec.sha1K t) (he : ∀ t, lo ≤ t → t < lo + n → ∀ a b c, exp a b c = Spec.sha1F t a b c) :
    ∃ x', forN n (fun i => sha1Round func const exp (lo + i)) x = some x' ∧ Sha1Inv blk s (lo + n) x' := by
  refine forN_inv (fun i y => Sha1Inv blk s (lo + i) y) n _ x hx fun i hi y hy => ?_
  exact sha1Round_ok hy (hf _ _ (by omega) (by omega) hy) (hc _ (by omega) (by omega)) (he _ (by omega) (by omega))

theorem sha1F_lt {t : Nat} : (t < 20 → Spec.sha1F t = Spec.ch) ∧ (20 ≤ t → t < 40 → Spec.sha1F t = Spec.parity) ∧
    (40 ≤ t → t < 60 → Spec.sha1F t = Spec.maj) ∧ (60 ≤ t → Spec.sha1F t = Spec.parity) := by
  unfold Spec.sha1F
  refine ⟨fun h => by rw [if_pos h], fun h1 h2 => by rw [if_neg (by omega), if_pos h2], fun h1 h2 => by rw [if_neg (by omega), if_neg (by omega), if_pos h2],
    fun h1 => by rw [if_neg (by omega), if_neg (by omega), if_neg (by omega)]⟩

theorem sha1K_lt {t : Nat} : (t < 20 → 0x5a827999 = Spec.sha1K t) ∧ (20 ≤ t → t < 40 → 0x6ed9eba1 = Spec.sha1K t) ∧
    (40 ≤ t → t < 60 → 0x8f1bbcdc = Spec.sha1K t) ∧ (60 ≤ t → 0xca62c1d6 = Spec.sha1K t) := by
  unfold Spec.sha1K
  refine ⟨fun h => by rw [if_pos h], fun h1 h2 => by rw [if_neg (by omega), if_pos h2], fun h1 h2 => by rw [if_neg (by omega), if_neg (by omega), if_pos h2],
    fun h1 => by rw [if_neg (by omega), if_neg (by omega), if_neg (by omega)]⟩

theorem sha1Transform_ok {st : List W32} {w : List (Option W32)} {d : List Byte} {p : Nat} (hst : st.length = 5) (hw : w.length = 16) (hp : p + 64 ≤ d.length) :
    ∃ w', sha1Transform st w d p = some (Spec.sha1Comp st ((d.drop p).take 64), w') ∧ w'.length = 16 := by
  match st, hst with
  | [d0, d1, d2, d3, d4], _ =>
    generalize hblk : (d.drop p).take 64 = blk
    have h0 : Sha1Inv blk ⟨d0, d1, d2, d3, d4⟩ 0 (⟨d0, d1, d2, d3, d4⟩, w) := ⟨hw, rfl, fun j hj => absurd hj (Nat.not_lt_zero _)⟩
    obtain ⟨x1, e1, i1⟩ := sha1Phase (n := 16) h0 (func := sha1Src d p) (const := 0x5a827999) (exp := sha1Ch)
      (fun t y _ ht hy => by
        unfold sha1Src
        rw [src_ok hp (by omega), hblk, Spec.sha1W, if_pos (by omega)])
      (fun t _ ht => sha1K_lt.1 (by omega)) (fun t _ ht a b c => by rw [sha1F_lt.1 (by omega)]; exact ch_eq a b c)
    simp only [Nat.zero_add] at e1 i1
    obtain ⟨x2, e2, i2⟩ := sha1Phase (n := 4) i1 (func := sha1Mix) (const := 0x5a827999) (exp := sha1Ch)
      (fun t y h ht hy => sha1Mix_ok hy h) (fun t _ ht => sha1K_lt.1 (by omega)) (fun t _ ht a b c => by rw [sha1F_lt.1 (by omega)]; exact ch_eq a b c)
    obtain ⟨x3, e3, i3⟩ := sha1Phase (n := 20) i2 (func := sha1Mix) (const := 0x6ed9eba1) (exp := sha1Parity)
      (fun t y h ht hy => sha1Mix_ok hy (by omega)) (fun t h ht => sha1K_lt.2.1 (by omega) (by omega))
      (fun t h ht a b c => by rw [sha1F_lt.2.1 (by omega) (by omega)]; rfl)
    obtain ⟨x4, e4, i4⟩ := sha1Phase (n := 20) i3 (func := sha1Mix) (const := 0x8f1bbcdc) (exp := sha1Maj)
      (fun t y h ht hy => sha1Mix_ok hy (by omega)) (fun t h ht => sha1K_lt.2.2.1 (by omega) (by omega))
      (fun t h ht a b c => by rw [sha1F_lt.2.2.1 (by omega) (by omega)]; exact maj_add a b c)
    obtain ⟨x5, e5, i5⟩ := sha1Phase (n := 20) i4 (func := sha1Mix) (const := 0xca62c1d6) (exp := sha1Parity)
      (fun t y h ht hy => sha1Mix_ok hy (by omega)) (fun t h ht => sha1K_lt.2.2.2 (by omega))
      (fun t h ht a b c => by rw [sha1F_lt.2.2.2 (by omega)]; rfl)
    refine ⟨x5.2, ?_, i5.1⟩
    unfold sha1Transform
    simp only [Option.bind_eq_bind]
    rw [e1, Option.bind_some, e2, Option.bind_some, e3, Option.bind_some, e4, Option.bind_some, e5, Option.bind_some, i5.2.1]
    unfold Spec.sha1Comp
    simp only [Option.pure_def, List.getD_cons_zero, List.getD_cons_succ, BitVec.add_comm]

theorem sha1Comp_length (st : List W32) (blk : List Byte) : (Spec.sha1Comp st blk).length = 5 := rfl

/-- The loop over blocks folds the compression function. -/
theorem shaLoop_ok {n k : Nat} {comp : List W32 → List Byte → List W32} {transform : List W32 → List (Option W32) → List Byte → Nat → Option (List W32 × List (Option W32))}
    (hl : ∀ st blk, st.length = n → (comp st blk).length = n)
    (ht : ∀ st w d p, st.length = n → w.length = k → p + 64 ≤ d.length → ∃ w', transform st w d p = some (comp st ((d.drop p).take 64), w') ∧ w'.length = k) :
    Folds n comp (fun st d p blocks => shaLoop transform blocks st (List.replicate k none) d p) := by
  refine ⟨hl, ?_⟩
  have key : ∀ (c : Nat) (st : List W32) (w : List (Option W32)) (d : List Byte) (p : Nat), st.length = n → w.length = k → p + 64 * c ≤ d.length →
      shaLoop transform c st w d p = some ((blocks ((d.drop p).take (64 * c))).foldl comp st) := by
    intro c
    induction c with
    | zero => intro st w d p _ _ _; rw [shaLoop, Nat.mul_zero, List.take_zero]; rfl
    | succ c ih =>
      intro st w d p h1 h2 h3
      obtain ⟨w', h4, h5⟩ := ht st w d p h1 h2 (by omega)
      rw [shaLoop]
      simp only [Option.bind_eq_bind]
      rw [h4, Option.bind_some]
      dsimp only
      rw [ih _ _ _ _ (hl _ _ h1) h5 (by omega)]
      have hb : ((d.drop p).take 64).length = 64 := by rw [List.length_take, List.length_drop]; omega
      have e : (d.drop p).take (64 * (c + 1)) = (d.drop p).take 64 ++ (d.drop (p + 64)).take (64 * c) := by
        rw [show 64 * (c + 1) = 64 + 64 * c by omega, List.take_add, List.drop_drop]
      rw [e, blocks_append _ _ (by omega), blocks_one _ hb]
      rfl
  intro st d p c h1 h2
  exact key c st _ d p h1 List.length_replicate h2

theorem sha1Block_folds : Folds 5 Spec.sha1Comp sha1Block :=
  shaLoop_ok (fun st blk _ => sha1Comp_length st blk) fun _ _ _ _ h1 h2 h3 => sha1Transform_ok h1 h2 h3

end Bfdev.Digest

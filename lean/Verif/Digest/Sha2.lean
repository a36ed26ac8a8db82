import Verif.Digest.Sha1
set_option linter.unusedSimpArgs false
/-!
The SHA-2 transform.
-/
namespace Bfdev.Digest
open Spec (blocks pad beWord leWord byte)
open Scan (rol ror)

/-- The round constants as a function. -/
def sha2Kf (t : Nat) : W32 := sha2K.getD t 0

theorem unroll8_inv {σ : Type} {f : Nat → σ → Option σ} (P : Nat → σ → Prop) {c : Nat} {s : σ} (h0 : P c s)
    (hs : ∀ i, c ≤ i → i < c + 8 → ∀ t, P i t → ∃ t', f i t = some t' ∧ P (i + 1) t') : ∃ t, unroll8 f c s = some t ∧ P (c + 8) t := by
  obtain ⟨s1, e1, h1⟩ := hs (c + 0) (by omega) (by omega) s h0
  obtain ⟨s2, e2, h2⟩ := hs (c + 1) (by omega) (by omega) s1 h1
  obtain ⟨s3, e3, h3⟩ := hs (c + 2) (by omega) (by omega) s2 h2
  obtain ⟨s4, e4, h4⟩ := hs (c + 3) (by omega) (by omega) s3 h3
  obtain ⟨s5, e5, h5⟩ := hs (c + 4) (by omega) (by omega) s4 h4
  obtain ⟨s6, e6, h6⟩ := hs (c + 5) (by omega) (by omega) s5 h5
  obtain ⟨s7, e7, h7⟩ := hs (c + 6) (by omega) (by omega) s6 h6
  obtain ⟨s8, e8, h8⟩ := hs (c + 7) (by omega) (by omega) s7 h7
  refine ⟨s8, ?_, h8⟩
  unfold unroll8
  simp only [Option.bind_eq_bind]
  rw [e1, Option.bind_some, e2, Option.bind_some, e3, Option.bind_some, e4, Option.bind_some, e5, Option.bind_some, e6, Option.bind_some, e7, Option.bind_some, e8]

/-- The first `t` words of the schedule are there. -/
def Sched (blk : List Byte) (t : Nat) (b : List (Option W32)) : Prop := b.length = 64 ∧ ∀ j, j < t → ws b j = some (Spec.sha2W blk j)

theorem sched_set {blk : List Byte} {t : Nat} {b : List (Option W32)} (h : Sched blk t b) (ht : t < 64) :
    Sched blk (t + 1) (b.set t (some (Spec.sha2W blk t))) := by
  refine ⟨by rw [List.length_set]; exact h.1, fun j hj => ?_⟩
  rw [ws_set (by rw [h.1]; exact ht)]
  by_cases hjt : j = t
  · rw [if_pos hjt, hjt]
  · rw [if_neg hjt, h.2 j (by omega)]

theorem s0_eq (x : W32) : sha2S0 x = Spec.sSig0 x := by
  unfold sha2S0 Spec.sSig0
  rw [ror_eq _ _ (by omega), ror_eq _ _ (by omega)]
theorem s1_eq (x : W32) : sha2S1 x = Spec.sSig1 x := by
  unfold sha2S1 Spec.sSig1
  rw [ror_eq _ _ (by omega), ror_eq _ _ (by omega)]
theorem e0_eq (x : W32) : sha2E0 x = Spec.bSig0 x := by
  unfold sha2E0 Spec.bSig0
  rw [ror_eq _ _ (by omega), ror_eq _ _ (by omega), ror_eq _ _ (by omega)]
theorem e1_eq (x : W32) : sha2E1 x = Spec.bSig1 x := by
  unfold sha2E1 Spec.bSig1
  rw [ror_eq _ _ (by omega), ror_eq _ _ (by omega), ror_eq _ _ (by omega)]

theorem sched_ok {d : List Byte} {p : Nat} {w : List (Option W32)} (hw : w.length = 64) (hp : p + 64 ≤ d.length) :
    ∃ b b', forN 2 (fun i => unroll8 (sha2Load d p) (8 * i)) w = some b ∧ forN 6 (fun i => unroll8 sha2Blend (16 + 8 * i)) b = some b' ∧
      Sched ((d.drop p).take 64) 64 b' := by
  generalize hblk : (d.drop p).take 64 = blk
  obtain ⟨b, e1, h1⟩ := forN_inv (fun i b => Sched blk (8 * i) b) 2 (fun i => unroll8 (sha2Load d p) (8 * i)) w ⟨hw, fun j hj => absurd hj (by omega)⟩
    fun i hi t ht => by
      refine unroll8_inv (Sched blk) ht fun c hc1 hc2 b hb => ?_
      refine ⟨_, ?_, sched_set hb (by omega)⟩
      unfold sha2Load
      rw [src_ok hp (by omega), hblk]
      simp only [Option.bind_eq_bind, Option.bind_some]
      rw [setIdx_some _ (by rw [hb.1]; omega), Spec.sha2W, if_pos (by omega)]
  obtain ⟨b', e2, h2⟩ := forN_inv (fun i b => Sched blk (16 + 8 * i) b) 6 (fun i => unroll8 sha2Blend (16 + 8 * i)) b h1
    fun i hi t ht => by
      refine unroll8_inv (Sched blk) ht fun c hc1 hc2 b hb => ?_
      refine ⟨_, ?_, sched_set hb (by omega)⟩
      unfold sha2Blend
      rw [hb.2 (c - 2) (by omega), hb.2 (c - 7) (by omega), hb.2 (c - 15) (by omega), hb.2 (c - 16) (by omega)]
      simp only [Option.bind_eq_bind, Option.bind_some]
      rw [setIdx_some _ (by rw [hb.1]; omega)]
      conv => rhs; rw [Spec.sha2W, if_neg (by omega)]
      rw [s1_eq, s0_eq]
  exact ⟨b, b', e1, e2, h2⟩

/-- One round as a function. -/
def step8 (blk : List Byte) (t : Nat) (r : R8) : R8 :=
  ⟨r.H + Spec.bSig1 r.E + Spec.ch r.E r.F r.G + sha2Kf t + Spec.sha2W blk t + (Spec.bSig0 r.A + Spec.maj r.A r.B r.C), r.A, r.B, r.C,
    r.D + (r.H + Spec.bSig1 r.E + Spec.ch r.E r.F r.G + sha2Kf t + Spec.sha2W blk t), r.E, r.F, r.G⟩

theorem rounds_succ (blk : List Byte) (s : R8) (t : Nat) : Spec.sha2Rounds sha2Kf blk s (t + 1) = step8 blk t (Spec.sha2Rounds sha2Kf blk s t) := rfl

theorem next8 {blk : List Byte} {b : List (Option W32)} (hb : Sched blk 64 b) {c : Nat} (hc : c < 64) (r r1 : R8) (h : r1 = step8 blk c r) :
    sha2Round c b r.A r.B r.C r.D r.E r.F r.G r.H = some (r1.E, r1.A) ∧ r.A = r1.B ∧ r.B = r1.C ∧ r.C = r1.D ∧ r.E = r1.F ∧ r.F = r1.G ∧ r.G = r1.H := by
  subst h
  refine ⟨?_, rfl, rfl, rfl, rfl, rfl, rfl⟩
  have hk : sha2K[c]? = some (sha2Kf c) := by
    unfold sha2Kf
    rw [List.getD_eq_getElem?_getD, List.getElem?_eq_getElem (show c < sha2K.length from hc)]
    rfl
  unfold sha2Round
  rw [hk, hb.2 c hc]
  simp only [Option.bind_eq_bind, Option.bind_some, Option.pure_def]
  unfold step8
  rw [e1_eq, e0_eq]
  unfold sha2Ch sha2Maj
  rw [ch2_eq, maj_or]

/-- The body without its pattern match. -/
theorem body_def (b : List (Option W32)) (count : Nat) (r : R8) : sha2Body b count r =
    (sha2Round (count + 0) b r.A r.B r.C r.D r.E r.F r.G r.H).bind fun x1 =>
    (sha2Round (count + 1) b x1.2 r.A r.B r.C x1.1 r.E r.F r.G).bind fun x2 =>
    (sha2Round (count + 2) b x2.2 x1.2 r.A r.B x2.1 x1.1 r.E r.F).bind fun x3 =>
    (sha2Round (count + 3) b x3.2 x2.2 x1.2 r.A x3.1 x2.1 x1.1 r.E).bind fun x4 =>
    (sha2Round (count + 4) b x4.2 x3.2 x2.2 x1.2 x4.1 x3.1 x2.1 x1.1).bind fun x5 =>
    (sha2Round (count + 5) b x5.2 x4.2 x3.2 x2.2 x5.1 x4.1 x3.1 x2.1).bind fun x6 =>
    (sha2Round (count + 6) b x6.2 x5.2 x4.2 x3.2 x6.1 x5.1 x4.1 x3.1).bind fun x7 =>
    (sha2Round (count + 7) b x7.2 x6.2 x5.2 x4.2 x7.1 x6.1 x5.1 x4.1).bind fun x8 =>
    some ⟨x8.2, x7.2, x6.2, x5.2, x8.1, x7.1, x6.1, x5.1⟩ := rfl

theorem body_step {blk : List Byte} {b : List (Option W32)} (hb : Sched blk 64 b) {c : Nat} (hc : c + 8 ≤ 64) (r0 r1 r2 r3 r4 r5 r6 r7 r8 : R8)
    (h1 : r1 = step8 blk (c + 0) r0) (h2 : r2 = step8 blk (c + 1) r1) (h3 : r3 = step8 blk (c + 2) r2) (h4 : r4 = step8 blk (c + 3) r3)
    (h5 : r5 = step8 blk (c + 4) r4) (h6 : r6 = step8 blk (c + 5) r5) (h7 : r7 = step8 blk (c + 6) r6) (h8 : r8 = step8 blk (c + 7) r7) :
    sha2Body b c r0 = some r8 := by
  obtain ⟨e1, a1, b1, c1, f1, g1, i1⟩ := next8 hb (show c + 0 < 64 by omega) r0 r1 h1
  obtain ⟨e2, a2, b2, c2, f2, g2, i2⟩ := next8 hb (show c + 1 < 64 by omega) r1 r2 h2
  obtain ⟨e3, a3, b3, c3, f3, g3, i3⟩ := next8 hb (show c + 2 < 64 by omega) r2 r3 h3
  obtain ⟨e4, a4, b4, c4, f4, g4, i4⟩ := next8 hb (show c + 3 < 64 by omega) r3 r4 h4
  obtain ⟨e5, a5, b5, c5, f5, g5, i5⟩ := next8 hb (show c + 4 < 64 by omega) r4 r5 h5
  obtain ⟨e6, a6, b6, c6, f6, g6, i6⟩ := next8 hb (show c + 5 < 64 by omega) r5 r6 h6
  obtain ⟨e7, a7, b7, c7, f7, g7, i7⟩ := next8 hb (show c + 6 < 64 by omega) r6 r7 h7
  obtain ⟨e8, a8, b8, c8, f8, g8, i8⟩ := next8 hb (show c + 7 < 64 by omega) r7 r8 h8
  clear h1 h2 h3 h4 h5 h6 h7 h8
  rw [body_def, e1, Option.bind_some]
  dsimp only
  simp only [a1, b1, c1, f1, g1, i1]
  rw [e2, Option.bind_some]
  simp only [a2, b2, c2, f2, g2, i2]
  rw [e3, Option.bind_some]
  simp only [a3, b3, c3, f3, g3, i3]
  rw [e4, Option.bind_some]
  simp only [a4, b4, c4, f4, g4, i4]
  rw [e5, Option.bind_some]
  simp only [a5, b5, c5, f5, g5, i5]
  rw [e6, Option.bind_some]
  simp only [a6, b6, c6, f6, g6, i6]
  rw [e7, Option.bind_some]
  simp only [a7, b7, c7, f7, g7, i7]
  rw [e8, Option.bind_some]
  simp only [a8, b8, c8, f8, g8, i8]

theorem body_ok {blk : List Byte} {b : List (Option W32)} (hb : Sched blk 64 b) {c : Nat} (hc : c + 8 ≤ 64) (s : R8) :
    sha2Body b c (Spec.sha2Rounds sha2Kf blk s c) = some (Spec.sha2Rounds sha2Kf blk s (c + 8)) :=
  body_step hb hc _ _ _ _ _ _ _ _ _ (rounds_succ blk s c) (rounds_succ blk s (c + 1)) (rounds_succ blk s (c + 2)) (rounds_succ blk s (c + 3))
    (rounds_succ blk s (c + 4)) (rounds_succ blk s (c + 5)) (rounds_succ blk s (c + 6)) (rounds_succ blk s (c + 7))

theorem sha2Transform_ok {st : List W32} {w : List (Option W32)} {d : List Byte} {p : Nat} (hst : st.length = 8) (hw : w.length = 64) (hp : p + 64 ≤ d.length) :
    ∃ w', sha2Transform st w d p = some (Spec.sha2Comp sha2Kf st ((d.drop p).take 64), w') ∧ w'.length = 64 := by
  match st, hst with
  | [d0, d1, d2, d3, d4, d5, d6, d7], _ =>
    obtain ⟨b, b', e1, e2, h1⟩ := sched_ok hw hp
    obtain ⟨r, e3, h2⟩ := forN_inv (fun i r => r = Spec.sha2Rounds sha2Kf ((d.drop p).take 64) ⟨d0, d1, d2, d3, d4, d5, d6, d7⟩ (8 * i)) 8 (fun i => sha2Body b' (8 * i))
      ⟨d0, d1, d2, d3, d4, d5, d6, d7⟩ rfl fun i hi t ht => ⟨_, by rw [ht]; exact body_ok h1 (by omega) _, rfl⟩
    refine ⟨b', ?_, h1.1⟩
    unfold sha2Transform
    simp only [Option.bind_eq_bind]
    rw [e1, Option.bind_some, e2, Option.bind_some, e3, Option.bind_some, h2]
    unfold Spec.sha2Comp
    simp only [Option.pure_def, List.getD_cons_zero, List.getD_cons_succ, BitVec.add_comm]

theorem sha2Block_folds : Folds 8 (Spec.sha2Comp sha2Kf) sha2Block :=
  shaLoop_ok (fun _ _ _ => rfl) fun _ _ _ _ h1 h2 h3 => sha2Transform_ok h1 h2 h3

end Bfdev.Digest

import Verif.Digest.Words
set_option linter.unusedSimpArgs false
/-!
The MD5 transform.
-/
namespace Bfdev.Digest
open Spec (blocks pad beWord leWord byte)

/-- The function of step `i`. -/
def fnOf (i : Nat) : Fn := if i < 16 then .f1 else if i < 32 then .f2 else if i < 48 then .f3 else .f4

/-- The registers that play A, B, C, D of the standard in step `i`. -/
def names (i : Nat) : Reg × Reg × Reg × Reg :=
  if i % 4 = 0 then (.a, .b, .c, .d) else if i % 4 = 1 then (.d, .a, .b, .c) else if i % 4 = 2 then (.c, .d, .a, .b) else (.b, .c, .d, .a)

/-- Step `i` as the standard has it. -/
def rowOf (i : Nat) : Row := (fnOf i, (names i).1, (names i).2.1, (names i).2.2.1, (names i).2.2.2, Spec.md5Idx i, Spec.md5T.getD i 0, Spec.md5Rot i)

theorem rows_eq : md5Rows = (List.range 64).map rowOf := by rfl

theorem rows_ok (i : Nat) (h : i < 64) : md5Rows[i]? = some (rowOf i) := by
  rw [rows_eq, List.getElem?_map, List.getElem?_range h, Option.map_some]

theorem rot_ok : ∀ i, i < 64 → (0 < Spec.md5Rot i ∧ Spec.md5Rot i < 32) ∧ Spec.md5Idx i < 16 := by decide +kernel

theorem md5F_ok (i : Nat) (x y z : W32) : md5F (fnOf i) x y z = Spec.md5Fun i x y z := by
  unfold fnOf Spec.md5Fun
  by_cases h1 : i < 16
  · rw [if_pos h1, if_pos h1]
    show z ^^^ (x &&& (y ^^^ z)) = _
    ext i hi
    simp only [BitVec.getElem_xor, BitVec.getElem_and, BitVec.getElem_or, BitVec.getElem_not]
    cases x[i] <;> cases y[i] <;> cases z[i] <;> rfl
  rw [if_neg h1, if_neg h1]
  by_cases h2 : i < 32
  · rw [if_pos h2, if_pos h2]
    show y ^^^ (z &&& (x ^^^ y)) = _
    ext i hi
    simp only [BitVec.getElem_xor, BitVec.getElem_and, BitVec.getElem_or, BitVec.getElem_not]
    cases x[i] <;> cases y[i] <;> cases z[i] <;> rfl
  rw [if_neg h2, if_neg h2]
  by_cases h3 : i < 48
  · rw [if_pos h3, if_pos h3]
    rfl
  rw [if_neg h3, if_neg h3]
  rfl

/-- The model's registers at step `i` are the standard's. -/
def Match (i : Nat) (r s : R4) : Prop := r.get (names i).1 = s.A ∧ r.get (names i).2.1 = s.B ∧ r.get (names i).2.2.1 = s.C ∧ r.get (names i).2.2.2 = s.D

theorem match_next {i : Nat} {r s : R4} (h : Match i r s) (v : W32) : Match (i + 1) (r.set (names i).1 v) ⟨s.D, v, s.B, s.C⟩ := by
  obtain ⟨h1, h2, h3, h4⟩ := h
  unfold Match
  have h5 : i % 4 = 0 ∨ i % 4 = 1 ∨ i % 4 = 2 ∨ i % 4 = 3 := by omega
  rcases h5 with h5 | h5 | h5 | h5
  · have h6 : (i + 1) % 4 = 1 := by omega
    simp only [names, h5, h6] at *
    exact ⟨h4, rfl, h2, h3⟩
  · have h6 : (i + 1) % 4 = 2 := by omega
    simp only [names, h5, h6] at *
    exact ⟨h4, rfl, h2, h3⟩
  · have h6 : (i + 1) % 4 = 3 := by omega
    simp only [names, h5, h6] at *
    exact ⟨h4, rfl, h2, h3⟩
  · have h6 : (i + 1) % 4 = 0 := by omega
    simp only [names, h5, h6] at *
    exact ⟨h4, rfl, h2, h3⟩

theorem leWord_ok {blk : List Byte} (h : blk.length = 64) {k : Nat} (hk : k < 16) : Swab.getLe32 blk (4 * k) = some (leWord blk k) := by
  rw [getLe32_ok (by omega)]
  rfl

theorem steps_ok {blk : List Byte} (hb : blk.length = 64) (s : R4) : ∀ n i, i + n = 64 → ∀ r, Match i r (Spec.md5Rounds blk s i) →
    ∃ r', md5Steps (md5Rows.drop i) blk r = some r' ∧ Match 64 r' (Spec.md5Rounds blk s 64) := by
  intro n
  induction n with
  | zero =>
    intro i hi r hr
    rw [show i = 64 by omega] at hr ⊢
    exact ⟨r, rfl, hr⟩
  | succ n ih =>
    intro i hi r hr
    have hrow := rows_ok i (by omega)
    obtain ⟨hlt, hge⟩ := List.getElem?_eq_some_iff.mp hrow
    obtain ⟨hr1, hr2⟩ := rot_ok i (by omega)
    rw [List.drop_eq_getElem_cons hlt, hge]
    obtain ⟨m1, m2, m3, m4⟩ := hr
    have hn := match_next ⟨m1, m2, m3, m4⟩ ((Spec.md5Rounds blk s i).B + ((Spec.md5Rounds blk s i).A + Spec.md5Fun i (Spec.md5Rounds blk s i).B (Spec.md5Rounds blk s i).C
      (Spec.md5Rounds blk s i).D + leWord blk (Spec.md5Idx i) + Spec.md5T.getD i 0).rotateLeft (Spec.md5Rot i))
    obtain ⟨r', e1, e2⟩ := ih (i + 1) (by omega) _ hn
    refine ⟨r', ?_, e2⟩
    rw [md5Steps]
    have hstep : md5Step (rowOf i) blk r =
        some (r.set (names i).1 ((Spec.md5Rounds blk s i).B + ((Spec.md5Rounds blk s i).A + Spec.md5Fun i (Spec.md5Rounds blk s i).B (Spec.md5Rounds blk s i).C
          (Spec.md5Rounds blk s i).D + leWord blk (Spec.md5Idx i) + Spec.md5T.getD i 0).rotateLeft (Spec.md5Rot i))) := by
      unfold md5Step rowOf
      dsimp only
      rw [leWord_ok hb hr2, m1, m2, m3, m4, md5F_ok]
      simp only [Option.bind_eq_bind, Option.bind_some, Option.pure_def]
      have hrot : ∀ v : W32, v <<< Spec.md5Rot i ||| v >>> (32 - Spec.md5Rot i) = v.rotateLeft (Spec.md5Rot i) := by
        intro v
        unfold BitVec.rotateLeft BitVec.rotateLeftAux
        rw [Nat.mod_eq_of_lt hr1.2]
      rw [hrot, BitVec.add_comm _ (Spec.md5Rounds blk s i).B, BitVec.add_assoc _ _ (leWord blk (Spec.md5Idx i) : W32) |>.symm.symm]
      congr 4
      generalize Spec.md5Fun i _ _ _ = f
      generalize Spec.md5T.getD i 0 = t
      generalize leWord blk (Spec.md5Idx i) = w
      generalize (Spec.md5Rounds blk s i).A = a
      ac_rfl
    rw [hstep, Option.bind_some, e1]

theorem md5Block_folds : FoldsOne 4 Spec.md5Comp md5Block := by
  refine ⟨fun _ _ _ => rfl, ?_⟩
  intro st blk hst hb
  match st, hst with
  | [h0, h1, h2, h3], _ =>
    obtain ⟨r', e1, e2⟩ := steps_ok hb ⟨h0, h1, h2, h3⟩ 64 0 rfl ⟨h0, h1, h2, h3⟩ ⟨rfl, rfl, rfl, rfl⟩
    unfold md5Block
    rw [List.drop_zero] at e1
    simp only [Option.bind_eq_bind]
    rw [e1, Option.bind_some]
    obtain ⟨m1, m2, m3, m4⟩ := e2
    unfold Spec.md5Comp
    simp only [Option.pure_def, List.getD_cons_zero, List.getD_cons_succ]
    rw [← m1, ← m2, ← m3, ← m4]
    simp only [names, R4.get, BitVec.add_comm]
    rfl

end Bfdev.Digest

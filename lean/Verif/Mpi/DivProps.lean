import Verif.Mpi.Props
/-! Quotient and remainder of big integers: C42. -/
namespace Bfdev.Mpi
open Dword

/-- An outcome in which `q` and `r` hold the limbs `lq` and `lr`, all signs as before, or the allocator refused. -/
def PutsTwo (S : Store) (g : Grant) (q r n : Nat) (lq lr : List Nat) (x : Store × Code) : Prop :=
  (∀ i, i ≠ q → i ≠ r → x.1 i = S i) ∧ (∀ i, (x.1 i).plus = (S i).plus) ∧
    (x.2 = .ok ∧ ((x.1 q).limbs = lq ∧ lq.length ≤ (x.1 q).cap) ∧ ((x.1 r).limbs = lr ∧ lr.length ≤ (x.1 r).cap) ∨ x.2 = .nomem) ∧
    (g.obj q = true → g.obj r = true → g.buf = true → n ≤ 2 ^ 60 → x.2 = .ok)

theorem PutsTwo.yields {S : Store} {g : Grant} {q r n : Nat} {lq lr : List Nat} {x : Store × Code} (h : PutsTwo S g q r n lq lr x) (hqr : q ≠ r)
    {m k : Nat} (hq : Good lq m) (hr : Good lr k) (pq pr : Store → Bool) (sq sr : Bool)
    (hpq : ∀ T : Store, (∀ i, (T i).plus = (S i).plus) → pq T = sq)
    (hpr : ∀ T : Store, (∀ i, (T i).plus = (S i).plus) → pr (setPlus T q sq) = sr) (vq vr : Int)
    (hvq : (if sq then (val lq : Int) else -(val lq : Int)) = vq) (hvr : (if sr then (val lr : Int) else -(val lr : Int)) = vr) :
    YieldsTwo S g q r n (some (thenSigns x q r pq pr)) vq vr := by
  obtain ⟨T, c⟩ := x
  obtain ⟨h1, h2, h3, h4⟩ := h
  dsimp only at *
  unfold thenSigns thenPlus
  rcases h3 with ⟨rfl, ⟨k1, k2⟩, ⟨k3, k4⟩⟩ | rfl
  · simp only [if_pos]
    rw [hpq T h2, hpr T h2]
    refine ⟨_, _, rfl, ?_, Or.inl ⟨rfl, ⟨?_, ?_⟩, ⟨?_, ?_⟩⟩, fun _ _ _ _ => rfl⟩
    · intro i i1 i2
      rw [setPlus_ne i2, setPlus_ne i1, h1 i i1 i2]
    · rw [setPlus_ne hqr, setPlus_self]
      exact ⟨by rw [k1]; exact hq.words, by rw [k1]; exact hq.top, by rw [k1]; exact k2⟩
    · rw [setPlus_ne hqr, setPlus_self]
      unfold value
      dsimp only
      rw [k1]
      exact hvq
    · rw [setPlus_self, setPlus_ne (Ne.symm hqr)]
      exact ⟨by rw [k3]; exact hr.words, by rw [k3]; exact hr.top, by rw [k3]; exact k4⟩
    · rw [setPlus_self, setPlus_ne (Ne.symm hqr)]
      unfold value
      dsimp only
      rw [k3]
      exact hvr
  · rw [if_neg (by simp), if_neg (by simp)]
    exact ⟨_, _, rfl, h1, Or.inr rfl, h4⟩

theorem setTwo_puts (S : Store) (g : Grant) (q r n v : Nat) (hqr : q ≠ r) (hn : 1 ≤ n) :
    PutsTwo S g q r n (if v ≠ 0 then [v] else []) [] (setTwo S g q v r 0) := by
  unfold setTwo
  rcases mpiSeti_puts S g q v 1 (Or.inl (Nat.le_refl _)) with ⟨c1, h1, e1⟩ | ⟨e1, n1, n2⟩
  · rw [e1]
    dsimp only
    rw [if_neg (show ¬ (Code.ok ≠ Code.ok) by simp)]
    rcases mpiSeti_puts (store S q c1 (if v ≠ 0 then [v] else [])) g r 0 0 (Or.inr rfl) with ⟨c2, h2, e2⟩ | ⟨e2, n1, n2⟩
    · rw [e2]
      refine ⟨?_, ?_, Or.inl ⟨rfl, ?_, ?_⟩, fun _ _ _ _ => rfl⟩
      · intro i i1 i2
        dsimp only
        rw [store_ne i2, store_ne i1]
      · intro i
        dsimp only
        rw [store_plus, store_plus]
      · dsimp only
        rw [store_ne hqr, store_self]
        exact ⟨rfl, h1⟩
      · dsimp only
        rw [store_self]
        exact ⟨by simp, by simp⟩
    · exact absurd (Nat.zero_le _) n1
  · rw [e1]
    dsimp only
    rw [if_pos (show Code.nomem ≠ Code.ok by simp)]
    exact ⟨fun _ _ _ => rfl, fun _ => rfl, Or.inr rfl, fun h _ _ _ => absurd ⟨h, by decide⟩ n2⟩

theorem mpiDivi_puts {S : Store} {g : Grant} {q r a vi : Nat} (ha : Wf (S a)) (hv : vi < W64) (h0 : vi ≠ 0) (hne : (S a).limbs ≠ []) (hqr : q ≠ r)
    (hroom : 1 ≤ (S r).cap ∨ g.obj r = true) (n : Nat) (hn : (S a).limbs.length ≤ n) :
    ∃ x lq lr, mpiDivi S g q r a vi = some x ∧ PutsTwo S g q r n lq lr x ∧ Good lq (S a).limbs.length ∧ Good lr 1 ∧
      val lq = val (S a).limbs / vi ∧ val lr = val (S a).limbs % vi := by
  obtain ⟨dq, dr, e, _, h1, h2, h3, h4⟩ := mpaDivmodi_ok ha.words hne hv h0
  have hg : Good (strip dq) (S a).limbs.length := good_strip h2 (by omega)
  have hgr := good_seti (show dr < W64 by omega) 1 (Or.inl (Nat.le_refl _))
  have v1 : val (strip dq) = val (S a).limbs / vi := by
    rw [(strip_facts _).1, h3, Nat.mul_comm, Nat.mul_add_div (by omega), Nat.div_eq_of_lt h4, Nat.add_zero]
  have v2 : val (if dr ≠ 0 then [dr] else []) = val (S a).limbs % vi := by
    rw [val_seti, h3, Nat.mul_comm, Nat.mul_add_mod, Nat.mod_eq_of_lt h4]
  unfold mpiDivi
  dsimp only
  rw [if_neg h0, if_neg (fun c => hne (List.length_eq_zero_iff.1 c))]
  rcases hf : fit (S q) (g.obj q) (S a).limbs.length with _ | ⟨cap, m⟩
  · dsimp only
    refine ⟨_, strip dq, _, rfl, ⟨fun _ _ _ => rfl, fun _ => rfl, Or.inr rfl, fun k _ _ k2 => ?_⟩, hg, hgr, v1, v2⟩
    obtain ⟨y, hy⟩ := fit_some (o := S q) (g := g.obj q) (n := (S a).limbs.length) (Or.inr ⟨k, by omega⟩)
    rw [hy] at hf; cases hf
  · dsimp only
    rw [e, Option.map_some, if_pos hqr]
    refine ⟨_, strip dq, _, rfl, ?_, hg, hgr, v1, v2⟩
    have hcap : (store S q cap (strip dq) r).cap = (S r).cap := by rw [store_ne (Ne.symm hqr)]
    rcases mpiSeti_puts (store S q cap (strip dq)) g r dr 1 (Or.inl (Nat.le_refl _)) with ⟨c2, k2, e2⟩ | ⟨e2, n1, n2⟩
    · rw [e2]
      refine ⟨?_, ?_, Or.inl ⟨rfl, ?_, ?_⟩, fun _ _ _ _ => rfl⟩
      · intro i i1 i2
        dsimp only
        rw [store_ne i2, store_ne i1]
      · intro i
        dsimp only
        rw [store_plus, store_plus]
      · dsimp only
        rw [store_ne hqr, store_self]
        exact ⟨rfl, Nat.le_trans hg.len (fit_ok hf).1⟩
      · dsimp only
        rw [store_self]
        exact ⟨rfl, k2⟩
    · rw [hcap] at n1
      exact absurd (hroom.resolve_left n1) (fun c => n2 ⟨c, by decide⟩)

theorem mpiDiv_puts {S : Store} {g : Grant} {q r a b : Nat} (ha : Wf (S a)) (hb : Wf (S b)) (hgt : val (S b).limbs < val (S a).limbs)
    (hb0 : (S b).limbs ≠ []) (hqr : q ≠ r) (hqb : q ≠ b) (hrb : r ≠ b) (hn : (S b).limbs.length = 1 ∨ Normal (S b).limbs)
    (hroom : 1 ≤ (S r).cap ∨ g.obj r = true) :
    ∃ x lq lr m k, mpiDiv S g q r a b = some x ∧ PutsTwo S g q r ((S a).limbs.length + (S b).limbs.length) lq lr x ∧ Good lq m ∧ Good lr k ∧
      val lq = val (S a).limbs / val (S b).limbs ∧ val lr = val (S a).limbs % val (S b).limbs := by
  have hl0 : (S b).limbs.length ≠ 0 := fun n => hb0 (List.length_eq_zero_iff.1 n)
  have hll : (S b).limbs.length ≤ (S a).limbs.length := by
    apply Classical.byContradiction
    intro n
    have := val_lt_of_length ha.words hb.top (by omega)
    omega
  have hane : (S a).limbs ≠ [] := by
    intro n
    rw [n] at hgt
    simp [val] at hgt
  unfold mpiDiv
  dsimp only
  rw [if_neg hl0]
  by_cases c1 : (S b).limbs.length = 1
  · rw [if_pos c1]
    have hpos := val_pos hb.top hb0
    rw [val_single c1] at hpos ⊢
    obtain ⟨x, lq, lr, h⟩ := mpiDivi_puts (q := q) ha (head_lt hb.words) (by omega) hane hqr hroom ((S a).limbs.length + (S b).limbs.length) (by omega)
    exact ⟨x, lq, lr, _, _, h⟩
  · have hN := hn.resolve_left c1
    rw [if_neg c1, if_neg (by omega), if_neg (by omega), if_neg (by rintro (c | c | c) <;> contradiction)]
    obtain ⟨lq, lr, d1, _, d3, d4, d5, d6, d7, d8, d9, d10⟩ := divLong_ok ha.words ha.top hN hll
    have hgq : Good lq ((S a).limbs.length) := ⟨d3, d4, by have := hN.two; omega⟩
    have hgr : Good lr ((S b).limbs.length) := ⟨d6, d7, d8⟩
    rcases mpiSet_puts (d := r) g (S a).limbs.length ha (Nat.le_refl _) with ⟨c2, k2, e2⟩ | ⟨e2, n1, n2⟩
    · rw [e2, if_neg (by simp)]
      unfold mpiDivEnd
      dsimp only
      rw [d1]
      have hrcap : (store S r c2 (S a).limbs r).cap = c2 := by rw [store_self]
      rw [hrcap]
      by_cases c3 : q = a
      · rw [if_pos c3]
        by_cases c4 : g.buf = true ∧ (S a).limbs.length + (S b).limbs.length ≤ 2 ^ 60
        · rw [if_pos c4, Option.map_some]
          unfold mpiCopy
          rw [strip_id d4]
          have hfit : lq.length ≤ (store (store S r c2 (S a).limbs) r c2 lr q).cap := by
            rw [store_ne hqr, store_ne hqr, c3]
            exact Nat.le_trans hgq.len ha.room
          rcases assign_cases (store (store S r c2 (S a).limbs) r c2 lr) g q lq.length lq with ⟨c5, k5, e5⟩ | ⟨_, n1, _⟩
          · rw [e5]
            refine ⟨_, lq, lr, _, _, rfl, ⟨?_, ?_, Or.inl ⟨rfl, ?_, ?_⟩, fun _ _ _ _ => rfl⟩, hgq, hgr, d9, d10⟩
            · intro i i1 i2
              dsimp only
              rw [store_ne i1, store_ne i2, store_ne i2]
            · intro i
              dsimp only
              rw [store_plus, store_plus, store_plus]
            · dsimp only
              rw [store_self]
              exact ⟨rfl, k5⟩
            · dsimp only
              rw [store_ne (Ne.symm hqr), store_self]
              exact ⟨rfl, by dsimp only; omega⟩
          · exact absurd hfit n1
        · rw [if_neg c4]
          refine ⟨_, lq, lr, _, _, rfl, ⟨?_, ?_, Or.inr rfl, fun _ _ h1 h2 => absurd ⟨h1, h2⟩ c4⟩, hgq, hgr, d9, d10⟩
          · intro i i1 i2
            dsimp only
            rw [store_ne i2]
          · intro i
            dsimp only
            rw [store_plus]
      · rw [if_neg c3]
        rcases hf : fit (store S r c2 (S a).limbs q) (g.obj q) ((S a).limbs.length + (S b).limbs.length) with _ | ⟨cap, m⟩
        · dsimp only
          refine ⟨_, lq, lr, _, _, rfl, ⟨?_, ?_, Or.inr rfl, fun h1 _ _ h2 => ?_⟩, hgq, hgr, d9, d10⟩
          · intro i i1 i2
            dsimp only
            rw [store_ne i2]
          · intro i
            dsimp only
            rw [store_plus]
          · obtain ⟨y, hy⟩ := fit_some (o := store S r c2 (S a).limbs q) (g := g.obj q) (Or.inr ⟨h1, h2⟩)
            rw [hy] at hf; cases hf
        · dsimp only
          rw [Option.map_some]
          refine ⟨_, lq, lr, _, _, rfl, ⟨?_, ?_, Or.inl ⟨rfl, ?_, ?_⟩, fun _ _ _ _ => rfl⟩, hgq, hgr, d9, d10⟩
          · intro i i1 i2
            dsimp only
            rw [store_ne i1, store_ne i2, store_ne i2]
          · intro i
            dsimp only
            rw [store_plus, store_plus, store_plus]
          · dsimp only
            rw [store_self]
            exact ⟨rfl, by have := (fit_ok hf).1; have := hgq.len; dsimp only; omega⟩
          · dsimp only
            rw [store_ne (Ne.symm hqr), store_self]
            exact ⟨rfl, by dsimp only; omega⟩
    · rw [e2, if_pos (by simp)]
      exact ⟨_, lq, lr, _, _, rfl, ⟨fun _ _ _ => rfl, fun _ => rfl, Or.inr rfl, fun _ h _ h2 => absurd ⟨h, by omega⟩ n2⟩, hgq, hgr, d9, d10⟩

/-! ### Signs -/

theorem sign_tdiv (p s : Bool) (x y : Nat) :
    (if (p == s) then ((x / y : Nat) : Int) else -((x / y : Nat) : Int)) = Int.tdiv (if p then (x : Int) else -(x : Int)) (if s then (y : Int) else -(y : Int)) := by
  rcases p <;> rcases s <;> simp [Int.neg_tdiv, Int.tdiv_neg, Int.ofNat_tdiv]
theorem sign_tmod (p s : Bool) (x y : Nat) :
    (if p then ((x % y : Nat) : Int) else -((x % y : Nat) : Int)) = Int.tmod (if p then (x : Int) else -(x : Int)) (if s then (y : Int) else -(y : Int)) := by
  rcases p <;> rcases s <;> simp [Int.neg_tmod, Int.tmod_neg, Int.tmod_eq_emod_of_nonneg (Int.natCast_nonneg x)]

theorem divLess_ok {S : Store} {g : Grant} {q r a : Nat} (ha : Wf (S a)) (hqr : q ≠ r) (n : Nat) (hn : (S a).limbs.length ≤ n) :
    YieldsTwo S g q r n (some (divLess S g q r a)) 0 (value (S a)) := by
  have fin : ∀ T : Store, (∀ i, i ≠ r → T i = S i) → Wf (T r) → value (T r) = value (S a) →
      YieldsTwo S g q r n (some (thenPlus (mpiSeti T g q 0) q (fun _ => true))) 0 (value (S a)) := by
    intro T h1 h2 h3
    rcases mpiSeti_puts T g q 0 0 (Or.inr rfl) with ⟨c, k, e⟩ | ⟨_, n1, _⟩
    · rw [e]
      unfold thenPlus
      rw [if_pos rfl]
      dsimp only
      refine ⟨_, _, rfl, ?_, Or.inl ⟨rfl, ⟨?_, ?_⟩, ?_⟩, fun _ _ _ _ => rfl⟩
      · intro i i1 i2
        rw [setPlus_ne i1, store_ne i1, h1 i i2]
      · rw [setPlus_self, store_self]
        exact ⟨by simp [Limbs.nil], by simp, by simp⟩
      · rw [setPlus_self, store_self]
        rfl
      · rw [setPlus_ne (Ne.symm hqr), store_ne (Ne.symm hqr)]
        exact ⟨h2, h3⟩
    · exact absurd (Nat.zero_le _) n1
  unfold divLess
  dsimp only
  by_cases c : r = a
  · subst c
    rw [if_neg (show ¬ r ≠ r by simp), if_neg (show ¬ (Code.ok ≠ Code.ok) by simp)]
    exact fin S (fun _ _ => rfl) ha rfl
  · rw [if_pos c]
    rcases mpiSet_puts (d := r) g (S a).limbs.length ha (Nat.le_refl _) with ⟨c2, k2, e2⟩ | ⟨e2, n1, n2⟩
    · rw [e2]
      unfold thenPlus
      rw [if_pos rfl]
      dsimp only
      rw [if_neg (show ¬ (Code.ok ≠ Code.ok) by simp)]
      refine fin _ ?_ ?_ ?_
      · intro i hi
        rw [setPlus_ne hi, store_ne hi]
      · rw [setPlus_self, store_self]
        exact ⟨ha.words, ha.top, k2⟩
      · rw [setPlus_self, store_self, store_plus]
        rfl
    · rw [e2]
      unfold thenPlus
      rw [if_neg (show ¬ (Code.nomem = Code.ok) by simp), if_pos (show Code.nomem ≠ Code.ok by simp)]
      exact ⟨_, _, rfl, fun _ _ _ => rfl, Or.inr rfl, fun _ h _ h2 => absurd ⟨h, by omega⟩ n2⟩

/-! ### C42: quotient and remainder -/

/-- C42 for a word: the quotient rounded towards zero and the remainder with the sign of the dividend. Missing: division by zero
(`divi_zero_violated`), and a remainder object without a block when the allocator refuses one (`divi_refused_violated`). -/
theorem divi_correct_partial (S : Store) (g : Grant) (q r a vi : Nat) (ha : Wf (S a)) (hv : vi < W64) (h0 : vi ≠ 0) (hqr : q ≠ r)
    (hroom : 1 ≤ (S r).cap ∨ g.obj r = true) :
    YieldsTwo S g q r ((S a).limbs.length + 1) (divi S g q r a vi) (Int.tdiv (value (S a)) vi) (Int.tmod (value (S a)) vi) := by
  have e1 := sign_tdiv (S a).plus true (val (S a).limbs) vi
  have e2 := sign_tmod (S a).plus true (val (S a).limbs) vi
  simp only [if_true] at e1 e2
  unfold divi
  rw [mpiCmpi_eq ha hv]
  rcases Nat.lt_trichotomy (val (S a).limbs) vi with c | c | c
  · rw [Nat.compare_eq_lt.2 c]
    have := divLess_ok (g := g) ha hqr ((S a).limbs.length + 1) (by omega)
    unfold value at *
    rw [← e1, ← e2, Nat.div_eq_of_lt c, Nat.mod_eq_of_lt c]
    simpa using this
  · rw [Nat.compare_eq_eq.2 c]
    refine (setTwo_puts S g q r _ 1 hqr (by omega)).yields hqr (good_seti (by decide) 1 (Or.inl (Nat.le_refl _))) (good_nil 0) _ _ (S a).plus true
      (fun T h => h a) (fun _ _ => rfl) _ _ ?_ ?_
    · unfold value
      rw [← e1, c, Nat.div_self (by omega), val_seti]
      rcases (S a).plus <;> rfl
    · unfold value
      rw [← e2, c, Nat.mod_self]
      rcases (S a).plus <;> rfl
  · rw [Nat.compare_eq_gt.2 c]
    dsimp only
    obtain ⟨x, lq, lr, k1, k2, k3, k4, k5, k6⟩ := mpiDivi_puts (q := q) ha hv h0 (by intro n; rw [n] at c; simp [val] at c) hqr hroom ((S a).limbs.length + 1) (by omega)
    rw [k1, Option.map_some]
    refine k2.yields hqr k3 k4 _ _ (S a).plus (S a).plus (fun T h => h a) (fun T h => ?_) _ _ ?_ ?_
    · by_cases c2 : a = q
      · subst c2; rw [setPlus_self]
      · rw [setPlus_ne c2]; exact h a
    · unfold value
      rw [k5, ← e1]
      rcases (S a).plus <;> rfl
    · unfold value
      rw [k6, ← e2]

/-- C42: quotient and remainder of two objects. Missing: division by zero (`div_zero_violated`); divisors of several limbs whose top bit is
clear or with a limb 2^64 - 1 below the top (`div_unnormalised_violated`); a quotient stored in the dividend with a negative divisor
(`div_sign_violated`); results stored in the divisor. -/
theorem div_correct_partial (S : Store) (g : Grant) (q r a b : Nat) (ha : Wf (S a)) (hb : Wf (S b)) (hb0 : (S b).limbs ≠ [])
    (hn : val (S b).limbs < val (S a).limbs → (S b).limbs.length = 1 ∨ Normal (S b).limbs)
    (hqr : q ≠ r) (hqb : q ≠ b) (hrb : r ≠ b) (hqa : q = a → (S b).plus = true) (hroom : 1 ≤ (S r).cap ∨ g.obj r = true) :
    YieldsTwo S g q r ((S a).limbs.length + (S b).limbs.length) (div S g q r a b)
      (Int.tdiv (value (S a)) (value (S b))) (Int.tmod (value (S a)) (value (S b))) := by
  have e1 := sign_tdiv (S a).plus (S b).plus (val (S a).limbs) (val (S b).limbs)
  have e2 := sign_tmod (S a).plus (S b).plus (val (S a).limbs) (val (S b).limbs)
  have hl0 : 0 < (S b).limbs.length := List.length_pos_iff.2 hb0
  unfold div
  rw [mpiCmp_eq ha hb]
  rcases Nat.lt_trichotomy (val (S a).limbs) (val (S b).limbs) with c | c | c
  · rw [Nat.compare_eq_lt.2 c]
    have := divLess_ok (g := g) ha hqr ((S a).limbs.length + (S b).limbs.length) (by omega)
    unfold value at *
    rw [← e1, ← e2, Nat.div_eq_of_lt c, Nat.mod_eq_of_lt c]
    simpa using this
  · have hpos := val_pos hb.top hb0
    rw [Nat.compare_eq_eq.2 c]
    refine (setTwo_puts S g q r _ 1 hqr (by omega)).yields hqr (good_seti (by decide) 1 (Or.inl (Nat.le_refl _))) (good_nil 0) _ _
      ((S a).plus == (S b).plus) true (fun T h => by rw [h a, h b]) (fun _ _ => rfl) _ _ ?_ ?_
    · unfold value
      rw [← e1, c, Nat.div_self hpos, val_seti]
    · unfold value
      rw [← e2, c, Nat.mod_self]
      rcases (S a).plus <;> rfl
  · rw [Nat.compare_eq_gt.2 c]
    dsimp only
    obtain ⟨x, lq, lr, m, k, k1, k2, k3, k4, k5, k6⟩ := mpiDiv_puts ha hb c hb0 hqr hqb hrb (hn c) hroom
    rw [k1, Option.map_some]
    refine k2.yields hqr k3 k4 _ _ ((S a).plus == (S b).plus) (S a).plus (fun T h => by rw [h a, h b]) (fun T h => ?_) _ _ ?_ ?_
    · by_cases c2 : a = q
      · rw [c2, setPlus_self]
        dsimp only
        rw [hqa c2.symm]
        rcases (S q).plus <;> rfl
      · rw [setPlus_ne c2]; exact h a
    · unfold value
      rw [k5, ← e1]
    · unfold value
      rw [k6, ← e2]

/-- The Euclidean reading: quotient times divisor plus remainder is the dividend, and the remainder is smaller than the divisor. -/
theorem div_euclid (a b : Int) (hb : b ≠ 0) : Int.tdiv a b * b + Int.tmod a b = a ∧ (Int.tmod a b).natAbs < b.natAbs := by
  refine ⟨?_, ?_⟩
  · rw [Int.mul_comm]; exact Int.mul_tdiv_add_tmod a b
  · rw [Int.natAbs_tmod]
    exact Nat.mod_lt _ (by omega)

theorem modLess_ok {S : Store} {g : Grant} {r a : Nat} (ha : Wf (S a)) (n : Nat) (hn : (S a).limbs.length ≤ n) :
    Yields S g r n (some (modLess S g r a)) (value (S a)) := by
  unfold modLess
  by_cases c : r = a
  · rw [if_neg (by simpa using c)]
    subst c
    exact ⟨_, _, rfl, fun _ _ => rfl, Or.inl ⟨rfl, ha, rfl⟩, fun _ _ => rfl⟩
  · rw [if_pos c]
    exact (mpiSet_puts (d := r) g n ha hn).yields ⟨ha.words, ha.top, hn⟩ (Nat.le_refl _) _ (S a).plus (fun cap => store_plus _ _ _ _ _) _ rfl

theorem mpiModi_puts {S : Store} {g : Grant} {r a vi : Nat} (ha : Wf (S a)) (hv : vi < W64) (h0 : vi ≠ 0) (hne : (S a).limbs ≠ [])
    (hroom : 1 ≤ (S r).cap ∨ g.obj r = true) :
    ∃ x lr, mpiModi S g r a vi = some x ∧ Puts S g r 1 lr x ∧ Good lr 1 ∧ val lr = val (S a).limbs % vi := by
  obtain ⟨dq, dr, _, e, h1, h2, h3, h4⟩ := mpaDivmodi_ok ha.words hne hv h0
  unfold mpiModi
  dsimp only
  rw [if_neg h0, if_neg (fun c => hne (List.length_eq_zero_iff.1 c)), e, Option.map_some]
  refine ⟨_, _, rfl, ?_, good_seti (show dr < W64 by omega) 1 (Or.inl (Nat.le_refl _)), ?_⟩
  · rcases mpiSeti_puts S g r dr 1 (Or.inl (Nat.le_refl _)) with ⟨c, k, e⟩ | ⟨e, n1, n2⟩
    · rw [e]; exact Or.inl ⟨c, k, rfl⟩
    · exact absurd (hroom.resolve_left n1) (fun c => n2 ⟨c, by decide⟩)
  · rw [val_seti, h3, Nat.mul_comm, Nat.mul_add_mod, Nat.mod_eq_of_lt h4]

/-- C42 for the remainder by a word. Missing: as for `divi_correct_partial`. -/
theorem modi_correct_partial (S : Store) (g : Grant) (r a vi : Nat) (ha : Wf (S a)) (hv : vi < W64) (h0 : vi ≠ 0)
    (hroom : 1 ≤ (S r).cap ∨ g.obj r = true) :
    Yields S g r ((S a).limbs.length + 1) (modi S g r a vi) (Int.tmod (value (S a)) vi) := by
  have e2 := sign_tmod (S a).plus true (val (S a).limbs) vi
  simp only [if_true] at e2
  unfold modi
  rw [mpiCmpi_eq ha hv]
  rcases Nat.lt_trichotomy (val (S a).limbs) vi with c | c | c
  · rw [Nat.compare_eq_lt.2 c]
    have := modLess_ok (g := g) (r := r) ha ((S a).limbs.length + 1) (by omega)
    unfold value at *
    rw [← e2, Nat.mod_eq_of_lt c]
    exact this
  · rw [Nat.compare_eq_eq.2 c]
    refine (mpiSeti_puts S g r 0 _ (Or.inr rfl)).yields (good_seti (by decide) _ (Or.inr rfl)) (Nat.le_refl _) _ true (fun _ => rfl) _ ?_
    unfold value
    rw [← e2, c, Nat.mod_self]
    rcases (S a).plus <;> rfl
  · rw [Nat.compare_eq_gt.2 c]
    dsimp only
    obtain ⟨x, lr, k1, k2, k3, k4⟩ := mpiModi_puts (g := g) (r := r) ha hv h0 (by intro n; rw [n] at c; simp [val] at c) hroom
    rw [k1, Option.map_some]
    refine k2.yields ⟨k3.words, k3.top, by have := k3.len; omega⟩ (by omega) _ (S a).plus (fun cap => store_plus _ _ _ _ _) _ ?_
    unfold value
    rw [k4, ← e2]

/-- C42 for the remainder of two objects. Missing: as for `div_correct_partial`. -/
theorem mod_correct_partial (S : Store) (g : Grant) (r a b : Nat) (ha : Wf (S a)) (hb : Wf (S b)) (hb0 : (S b).limbs ≠ [])
    (hn : val (S b).limbs < val (S a).limbs → (S b).limbs.length = 1 ∨ Normal (S b).limbs) (hrb : r ≠ b) (hroom : 1 ≤ (S r).cap ∨ g.obj r = true) :
    Yields S g r ((S a).limbs.length + 1) (mod S g r a b) (Int.tmod (value (S a)) (value (S b))) := by
  have e2 := sign_tmod (S a).plus (S b).plus (val (S a).limbs) (val (S b).limbs)
  unfold mod
  rw [mpiCmp_eq ha hb]
  rcases Nat.lt_trichotomy (val (S a).limbs) (val (S b).limbs) with c | c | c
  · rw [Nat.compare_eq_lt.2 c]
    have := modLess_ok (g := g) (r := r) ha ((S a).limbs.length + 1) (by omega)
    unfold value at *
    rw [← e2, Nat.mod_eq_of_lt c]
    exact this
  · rw [Nat.compare_eq_eq.2 c]
    refine (mpiSeti_puts S g r 0 _ (Or.inr rfl)).yields (good_seti (by decide) _ (Or.inr rfl)) (Nat.le_refl _) _ true (fun _ => rfl) _ ?_
    unfold value
    rw [← e2, c, Nat.mod_self]
    rcases (S a).plus <;> rfl
  · rw [Nat.compare_eq_gt.2 c]
    dsimp only
    have hl0 : (S b).limbs.length ≠ 0 := fun n => hb0 (List.length_eq_zero_iff.1 n)
    have hll : (S b).limbs.length ≤ (S a).limbs.length := by
      apply Classical.byContradiction
      intro n
      have := val_lt_of_length ha.words hb.top (by omega)
      omega
    have hane : (S a).limbs ≠ [] := by intro n; rw [n] at c; simp [val] at c
    have fin : ∀ x lr m, mpiMod S g r a b = some x → Puts S g r (S a).limbs.length lr x → Good lr m → val lr = val (S a).limbs % val (S b).limbs →
        m ≤ (S a).limbs.length + 1 →
        Yields S g r ((S a).limbs.length + 1) ((mpiMod S g r a b).map fun s => thenPlus s r (fun s => (s a).plus)) (Int.tmod (value (S a)) (value (S b))) := by
      intro x lr m k1 k2 k3 k4 k5
      rw [k1, Option.map_some]
      refine k2.yields ⟨k3.words, k3.top, by have := k3.len; omega⟩ (by omega) _ (S a).plus (fun cap => store_plus _ _ _ _ _) _ ?_
      unfold value
      rw [k4, ← e2]
    by_cases c1 : (S b).limbs.length = 1
    · have hpos := val_pos hb.top hb0
      have hs := val_single c1
      obtain ⟨x, lr, k1, k2, k3, k4⟩ := mpiModi_puts (g := g) (r := r) ha (head_lt hb.words) (by omega) hane hroom
      refine fin x lr 1 ?_ (k2.mono (by omega)) k3 (by rw [hs]; exact k4) (by omega)
      unfold mpiMod
      dsimp only
      rw [if_neg hl0, if_pos c1]
      exact k1
    · have hN := (hn c).resolve_left c1
      obtain ⟨lq, lr, d1, ⟨z1, z2, z3, d2, d2'⟩, d3, d4, d5, d6, d7, d8, d9, d10⟩ := divLong_ok ha.words ha.top hN hll
      have hgr : Good lr ((S b).limbs.length) := ⟨d6, d7, d8⟩
      rcases mpiSet_puts (d := r) g (S a).limbs.length ha (Nat.le_refl _) with ⟨c2, k2, e2⟩ | ⟨e2, n1, n2⟩
      · refine fin (store (store S r c2 (S a).limbs) r c2 lr, .ok) lr _ ?_ (Or.inl ⟨c2, by omega, ?_⟩) hgr d10 (by omega)
        · unfold mpiMod
          dsimp only
          rw [if_neg hl0, if_neg c1, if_neg (by omega), if_neg (by omega), if_neg hrb, e2, if_neg (by simp), d2, Option.map_some]
          dsimp only
          rw [d2', store_self]
        · congr 1
          funext i
          by_cases ci : i = r
          · subst ci
            rw [store_self, store_self, store_self]
          · rw [store_ne ci, store_ne ci, store_ne ci]
      · refine fin (S, .nomem) lr _ ?_ (Or.inr ⟨rfl, n1, n2⟩) hgr d10 (by omega)
        unfold mpiMod
        dsimp only
        rw [if_neg hl0, if_neg c1, if_neg (by omega), if_neg (by omega), if_neg hrb, e2, if_pos (by simp)]

/-- Dividing anything but zero by zero is rejected and changes nothing. Missing: zero by zero (`div_zero_violated`). -/
theorem div_by_zero_partial (S : Store) (g : Grant) (q r a b : Nat) (ha : Wf (S a)) (hb : Wf (S b)) (hz : (S b).limbs = []) (hne : (S a).limbs ≠ []) :
    div S g q r a b = some (S, .overflow) ∧ mod S g r a b = some (S, .overflow) ∧ divi S g q r a 0 = some (S, .overflow) ∧
      modi S g r a 0 = some (S, .overflow) := by
  have hpos := val_pos ha.top hne
  have h1 : mpiCmp (S a) (S b) = .gt := by rw [mpiCmp_eq ha hb, hz]; exact Nat.compare_eq_gt.2 (by simpa [val] using hpos)
  have h2 : mpiCmpi (S a) 0 = .gt := by rw [mpiCmpi_eq ha (by decide)]; exact Nat.compare_eq_gt.2 hpos
  refine ⟨?_, ?_, ?_, ?_⟩
  · unfold div mpiDiv
    rw [h1]
    dsimp only
    rw [hz, if_pos (by simp)]
    rfl
  · unfold mod mpiMod
    rw [h1]
    dsimp only
    rw [hz, if_pos (by simp)]
    rfl
  · unfold divi mpiDivi
    rw [h2]
    dsimp only
    rw [if_pos rfl]
    rfl
  · unfold modi mpiModi
    rw [h2]
    dsimp only
    rw [if_pos rfl]
    rfl

/-- Object 0 is the dividend, 1 the divisor; the quotient goes to 2 and the remainder to 3. -/
example :
    let S := two ⟨[7, 8, 9], 32, false⟩ ⟨[5, 2 ^ 63], 32, true⟩
    view 2 (div S generous 2 3 0 1) = some (⟨[18], 32, false⟩, .ok) ∧ view 3 (div S generous 2 3 0 1) = some (⟨[W64 - 83, 7], 32, false⟩, .ok) := by
  decide +kernel
example : Normal [5, 2 ^ 63] := ⟨by decide +kernel, by decide, by decide +kernel, fun i hi h => by
  have : i = 0 := by simp at hi; omega
  subst this
  exact absurd h (by decide +kernel)⟩

/-- C42 fails: dividing zero by zero is not rejected; it gives 1 remainder 0. -/
theorem div_zero_violated :
    view 2 (div (fun _ => init) generous 2 3 0 1) = some (⟨[1], 32, true⟩, .ok) ∧ view 3 (div (fun _ => init) generous 2 3 0 1) = some (init, .ok) := by
  decide +kernel
/-- C42 fails: dividing zero by a zero word is not rejected either. -/
theorem divi_zero_violated : view 2 (divi (fun _ => init) generous 2 3 0 0) = some (⟨[1], 32, true⟩, .ok) := by decide +kernel

/-- C42 fails: with a divisor of two limbs whose top bit is clear the quotient is wrong. -/
theorem div_unnormalised_violated :
    let S := two ⟨[0, 0, 7], 32, true⟩ ⟨[0, 1], 32, true⟩
    Wf (S 0) ∧ Wf (S 1) ∧ val (S 0).limbs = (7 * W64) * val (S 1).limbs ∧ view 2 (div S generous 2 3 0 1) = some (⟨[MAX, 1], 32, true⟩, .ok) ∧
      val [MAX, 1] ≠ 7 * W64 := by
  refine ⟨by decide +kernel, by decide +kernel, by decide +kernel, by decide +kernel, by decide +kernel⟩

/-- C42 fails: dividing in place by a negative number gives the remainder the sign of the quotient: -7 = 3 * -2 + 1 is reported. -/
theorem div_sign_violated :
    let S := two ⟨[7], 32, false⟩ ⟨[2], 32, false⟩
    view 0 (div S generous 0 3 0 1) = some (⟨[3], 32, true⟩, .ok) ∧ view 3 (div S generous 0 3 0 1) = some (⟨[1], 32, true⟩, .ok) := by
  decide +kernel

/-- C42 fails: a remainder that cannot be stored is dropped and success reported: 7 = 3 * 2 + 0. -/
theorem divi_refused_violated :
    let S := two ⟨[7], 32, true⟩ ⟨[], 32, true⟩
    view 1 (divi S ⟨fun _ => false, false⟩ 1 3 0 2) = some (⟨[3], 32, true⟩, .ok) ∧ view 3 (divi S ⟨fun _ => false, false⟩ 1 3 0 2) = some (init, .ok) := by
  decide +kernel

end Bfdev.Mpi

import Verif.Mpi.DivProps
import Verif.Mpi.BitProps
/-!
C120: programs that compute with big integers, whatever the values, the aliasing, the results and the answers of the allocator: every object stays a proper one.
-/
set_option linter.unusedSimpArgs false
set_option linter.unusedVariables false
namespace Bfdev.Mpi.History
open Mpi Dword

/-! ## Histories -/

/-- One call of the interface, mpi.h, by the names of the objects; `j` is what new memory holds. -/
inductive Op where
  | add (d a b : Nat) | addi (d a vi : Nat) | sub (d a b : Nat) | subi (d a vi : Nat) | mul (d a b : Nat) | muli (d a vi : Nat)
  | div (q r a b : Nat) | divi (q r a vi : Nat) | mod (r a b : Nat) | modi (r a vi : Nat)
  | and (j : Nat → Nat) (d a b : Nat) | or (j : Nat → Nat) (d a b : Nat) | xor (j : Nat → Nat) (d a b : Nat)
  | shli (j : Nat → Nat) (d a shift : Nat) | shri (j : Nat → Nat) (d a shift : Nat) | bseti (d bit : Nat) | bclri (d bit : Nat)
  | seti (d vi : Nat) | set (d s : Nat) | import (d : Nat) (l : List Nat) (sign : Bool) | release (d : Nat)

/-- The call, mpi.c:1126-1752. -/
def Op.run (S : Store) (g : Grant) : Op → Res
  | .add d a b => Mpi.add S g d a b
  | .addi d a vi => Mpi.addi S g d a vi
  | .sub d a b => Mpi.sub S g d a b
  | .subi d a vi => Mpi.subi S g d a vi
  | .mul d a b => Mpi.mul S g d a b
  | .muli d a vi => some (Mpi.muli S g d a vi)
  | .div q r a b => Mpi.div S g q r a b
  | .divi q r a vi => Mpi.divi S g q r a vi
  | .mod r a b => Mpi.mod S g r a b
  | .modi r a vi => Mpi.modi S g r a vi
  | .and j d a b => Mpi.and_ S g j d a b
  | .or j d a b => Mpi.or_ S g j d a b
  | .xor j d a b => Mpi.xor_ S g j d a b
  | .shli j d a n => Mpi.shli S g j d a n
  | .shri j d a n => Mpi.shri S g j d a n
  | .bseti d bit => Mpi.bseti S g d bit
  | .bclri d bit => Mpi.bclri S d bit
  | .seti d vi => some (Mpi.seti S g d vi)
  | .set d s => some (Mpi.set S g d s)
  | .import d l sign => some (Mpi.import_ S g d l sign)
  | .release d => some (Mpi.release S d, .ok)

/-- The objects a call may change. -/
def Op.results : Op → List Nat
  | .add d _ _ | .addi d _ _ | .sub d _ _ | .subi d _ _ | .mul d _ _ | .muli d _ _ | .and _ d _ _ | .or _ d _ _ | .xor _ d _ _ | .shli _ d _ _ | .shri _ d _ _ | .bseti d _ | .bclri d _
  | .seti d _ | .set d _ | .import d _ _ | .release d => [d]
  | .div q r _ _ | .divi q r _ _ => [q, r]
  | .mod r _ _ | .modi r _ _ => [r]

/-- Arguments that are machine words are below 2^64, and a bit to be set has a number below 2^32. -/
def Op.Ok : Op → Prop
  | .addi _ _ vi | .subi _ _ vi | .muli _ _ vi | .divi _ _ _ vi | .modi _ _ vi | .seti _ vi => vi < 2 ^ 64
  | .bseti _ bit => bit < 2 ^ 32
  | .import _ l _ => ∀ x ∈ l, x < 2 ^ 64
  | _ => True

/-- A program: calls, each with what the allocator does during it. A call that is undefined or aborts ends it without result. -/
def runAll (S : Store) : List (Op × Grant) → Option Store
  | [] => some S
  | (o, g) :: rest => (o.run S g).bind fun r => runAll r.1 rest

/-! ## Words -/

theorem w64_lt (n : Nat) : w64 n < W64 := Nat.mod_lt _ (by decide)
theorem wsub_lt (a b : Nat) : wsub a b < W64 := Nat.mod_lt _ (by decide)
theorem b2n_le (b : Bool) : b2n b ≤ 1 := by cases b <;> decide
theorem or_lt {a b : Nat} (ha : a < W64) (hb : b < W64) : a ||| b < W64 := by
  have : W64 = 2 ^ 64 := rfl
  rw [this] at *
  exact Nat.or_lt_two_pow ha hb

theorem fix_lt {q r m div : Nat} (h : q < W64) : (fix q r m div).1 < W64 ∧ (fix q r m div).2 < W64 := by
  unfold fix
  dsimp only
  split
  · split
    · split
      · exact ⟨wsub_lt _ _, wsub_lt _ _⟩
      · exact ⟨wsub_lt _ _, wsub_lt _ _⟩
    · exact ⟨wsub_lt _ _, wsub_lt _ _⟩
  · exact ⟨h, wsub_lt _ _⟩

theorem digit_lt {sh next div d1 d0 : Nat} (h : sh < W64) : (digit sh next div d1 d0).1 < W64 ∧ (digit sh next div d1 d0).2 < W64 := by
  unfold digit
  exact fix_lt (Nat.lt_of_le_of_lt (Nat.div_le_self _ _) h)

theorem pair_lt {a b : Nat × Nat} (h1 : b.1 < W64) (h2 : b.2 < W64) {p : Nat × Nat} (e : p = (w64 (a.1 * half) ||| b.1, b.2)) : p.1 < W64 ∧ p.2 < W64 := by
  subst e
  exact ⟨or_lt (w64_lt _) h1, h2⟩

theorem qrnnd_lt {sh sl div : Nat} (h : sh < W64) : (qrnnd sh sl div).1 < W64 ∧ (qrnnd sh sl div).2 < W64 := by
  have ha := (digit_lt (next := higher sl) (div := div) (d1 := higher div) (d0 := lower div) h).2
  have hb := digit_lt (next := lower sl) (div := div) (d1 := higher div) (d0 := lower div) ha
  refine pair_lt (a := digit sh (higher sl) div (higher div) (lower div)) hb.1 hb.2 ?_
  unfold qrnnd
  rfl

theorem shr_lt {v n : Nat} (h : v < W64) : shr v n < W64 := Nat.lt_of_le_of_lt (Nat.div_le_self _ _) h

theorem udiv_lt {n0 n1 div : Nat} {r : (Nat × Nat) × Nat} (h0 : n0 < W64) (h1 : n1 < W64) (e : udiv n0 n1 div = some r) : r.1.1 < W64 ∧ r.2 < W64 := by
  unfold udiv at e
  split at e
  · obtain ⟨bm, _, e⟩ := Option.map_eq_some_iff.1 e
    subst e
    dsimp only
    have hn : (if bm ≠ 0 then shl n1 bm ||| shr n0 (64 - bm) else n1) < W64 := by
      split
      · exact or_lt (w64_lt _) (shr_lt h0)
      · exact h1
    exact ⟨(qrnnd_lt hn).1, shr_lt (qrnnd_lt hn).2⟩
  · split at e
    · cases e
    · obtain ⟨bm, _, e⟩ := Option.map_eq_some_iff.1 e
      subst e
      dsimp only
      split
      · exact ⟨(qrnnd_lt (wsub_lt _ _)).1, shr_lt (qrnnd_lt (wsub_lt _ _)).2⟩
      · have h2 := qrnnd_lt (sl := shl n1 bm ||| shr n0 (64 - bm)) (div := shl div bm) (shr_lt (n := 64 - bm) h1)
        exact ⟨(qrnnd_lt h2.2).1, shr_lt (qrnnd_lt h2.2).2⟩

/-! ## Products over any block -/

def Words (m : Nat → Nat) : Prop := ∀ k, m k < W64

theorem put_words {m : Nat → Nat} {i v : Nat} (h : Words m) (hv : v < W64) : Words (put m i v) := by
  intro k; unfold put; split
  · exact hv
  · exact h k

def SrcOk : MulSrc → Prop
  | .own l => Limbs l
  | .dest => True

theorem get_lt {s : MulSrc} {m : Nat → Nat} (hs : SrcOk s) (hm : Words m) (j : Nat) : s.get m j < W64 := by
  cases s with
  | own l => exact Limbs.getD hs j
  | dest => exact hm j

theorem muliM_words (a : MulSrc) (vi : Nat) : ∀ n j c m, c < W64 → Words m → Words (muliM a vi n j c m).1 ∧ (muliM a vi n j c m).2 < W64
  | 0, _, _, _, hc, hm => ⟨hm, hc⟩
  | n + 1, _, _, _, _, hm => muliM_words a vi n _ _ _ (w64_lt _) (put_words hm (w64_lt _))

theorem maciM_words (a : MulSrc) (off vi : Nat) : ∀ n j c m, c < W64 → Words m → Words (maciM a off vi n j c m).1 ∧ (maciM a off vi n j c m).2 < W64
  | 0, _, _, _, hc, hm => ⟨hm, hc⟩
  | n + 1, _, _, _, _, hm => maciM_words a off vi n _ _ _ (w64_lt _) (put_words hm (w64_lt _))

theorem addM_words (a : MulSrc) (off : Nat) : ∀ n j c m, c < W64 → Words m → Words (addM a off n j c m).1 ∧ (addM a off n j c m).2 < W64
  | 0, _, _, _, hc, hm => ⟨hm, hc⟩
  | n + 1, _, _, _, _, hm => addM_words a off n _ _ _ (Nat.lt_of_le_of_lt (b2n_le _) (by decide)) (put_words hm (w64_lt _))

theorem mulRow0_words {a b : MulSrc} {n : Nat} {m : Nat → Nat} (ha : SrcOk a) (hm : Words m) : Words (mulRow0 a b n m) := by
  unfold mulRow0
  dsimp only
  split
  · have := muliM_words a (b.get m 0) n 0 0 m (by decide) hm
    exact put_words this.1 this.2
  · have h1 : ∀ f : Nat → Nat, (∀ k, f k < W64) → Words (put (fillM f n m) n 0) := by
      intro f hf
      refine put_words (fun k => ?_) (by decide)
      unfold fillM
      split
      · exact hf k
      · exact hm k
    refine h1 _ (fun k => ?_)
    split
    · exact get_lt ha hm k
    · show 0 < W64; decide

theorem mulRow_words {a b : MulSrc} {n i : Nat} {m : Nat → Nat} (hm : Words m) : Words (mulRow a b n i m) := by
  unfold mulRow
  dsimp only
  split
  · have := maciM_words a i (b.get m i) n 0 0 m (by decide) hm
    exact put_words this.1 this.2
  · split
    · have := addM_words a i n 0 0 m (by decide) hm
      exact put_words this.1 this.2
    · exact put_words hm (show 0 < W64 by decide)

theorem mulRows_words (a b : MulSrc) (cnta : Nat) : ∀ n i m, Words m → Words (mulRows a b cnta n i m)
  | 0, _, _, h => h
  | n + 1, _, _, h => mulRows_words a b cnta n _ _ (mulRow_words h)

theorem mpaMul_good {a b : MulSrc} {cnta cntb : Nat} {m : Nat → Nat} (ha : SrcOk a) (hm : Words m) : Good (strip (mpaMul a b cnta cntb m)) (cnta + cntb) := by
  refine good_strip ?_ (by simp [mpaMul])
  intro x hx
  obtain ⟨k, _, rfl⟩ := List.mem_map.1 hx
  exact mulRows_words a b cnta _ _ _ (mulRow0_words ha hm) k

/-! ## Divisions by any divisor -/

theorem divmodi_words {a : List Nat} (ha : Limbs a) (vi : Nat) : ∀ n r q p, r < W64 → Limbs q → divmodiLoop a vi n r q = some p → Limbs p.1 ∧ p.2 < W64 ∧ p.1.length = n + q.length
  | 0, r, q, p, hr, hq, e => by cases e; exact ⟨hq, hr, (Nat.zero_add _).symm⟩
  | n + 1, r, q, p, hr, hq, e => by
    simp only [divmodiLoop] at e
    obtain ⟨u, eu, e⟩ := Option.bind_eq_some_iff.1 e
    have hu := udiv_lt (Limbs.getD ha n) hr eu
    have := divmodi_words ha vi n u.2 (u.1.1 :: q) p hu.2 (Limbs.cons hu.1 hq) e
    exact ⟨this.1, this.2.1, by rw [this.2.2, List.length_cons]; omega⟩

theorem mpaDivmodi_words {a : List Nat} {vi : Nat} {p : List Nat × Nat} (ha : Limbs a) (hne : a.length ≠ 0) (e : mpaDivmodi a vi = some p) :
    Limbs p.1 ∧ p.2 < W64 ∧ p.1.length = a.length := by
  unfold mpaDivmodi at e
  dsimp only at e
  split at e
  · have := divmodi_words ha vi _ _ _ _ (by decide) Limbs.nil e
    simpa using this
  · have := divmodi_words ha vi _ _ _ _ (Limbs.getD ha _) (Limbs.cons (by decide) Limbs.nil) e
    refine ⟨this.1, this.2.1, ?_⟩
    rw [this.2.2]; simp; omega

theorem modi_words {a : List Nat} (ha : Limbs a) (vi : Nat) : ∀ n r p, r < W64 → modiLoop a vi n r = some p → p < W64
  | 0, r, p, hr, e => by cases e; exact hr
  | n + 1, r, p, hr, e => by
    simp only [modiLoop] at e
    obtain ⟨u, eu, e⟩ := Option.bind_eq_some_iff.1 e
    exact modi_words ha vi n u.2 p (udiv_lt (Limbs.getD ha n) hr eu).2 e

theorem mpaModi_words {a : List Nat} {vi p : Nat} (ha : Limbs a) (e : mpaModi a vi = some p) : p < W64 := by
  unfold mpaModi at e
  dsimp only at e
  split at e
  · exact modi_words ha vi _ _ _ (by decide) e
  · exact modi_words ha vi _ _ _ (Limbs.getD ha _) e

theorem divFix_lt {dhigh dlow u : Nat} : ∀ fuel quot rem v1 value p, quot < W64 → divFix dhigh dlow u fuel quot rem v1 value = some p → p < W64
  | 0, _, _, _, _, _, _, e => by cases e
  | fuel + 1, quot, rem, v1, value, p, hq, e => by
    simp only [divFix] at e
    split at e
    · have hw := wsub_lt quot 1
      generalize wsub quot 1 = q' at e hw
      split at e
      · rw [← Option.some.inj e]; exact hw
      · exact divFix_lt fuel _ _ _ _ _ hw e
    · rw [← Option.some.inj e]; exact hq

theorem divGuess_lt {dhigh dlow top u1 u0 p : Nat} (h1 : u1 < W64) (ht : top < W64) (e : divGuess dhigh dlow top u1 u0 = some p) : p < W64 := by
  unfold divGuess at e
  split at e
  · cases e; decide
  · obtain ⟨u, eu, e⟩ := Option.bind_eq_some_iff.1 e
    exact divFix_lt _ _ _ _ _ _ (udiv_lt h1 ht eu).1 e

theorem divRound_words {b w : List Nat} {x : Nat} {p : Nat × List Nat} (hb : Limbs b) (hw : Limbs w) (hl : w.length = b.length) (hb0 : b.length ≠ 0) (hx : x < W64)
    (e : divRound b w x = some p) : p.1 < W64 ∧ Limbs p.2 ∧ p.2.length = b.length := by
  unfold divRound at e
  dsimp only at e
  obtain ⟨quot, eq, e⟩ := Option.map_eq_some_iff.1 e
  have hw' : Limbs (x :: w.take (b.length - 1)) := Limbs.cons hx (hw.take _)
  have hl' : (x :: w.take (b.length - 1)).length = b.length := by simp [hl]; omega
  have hq := divGuess_lt (Limbs.getD hw' _) (Limbs.getD hw _) eq
  have hm := mpaMsui_ok quot hq b _ 0 (by decide) hb hw' hl'
  split at e
  · subst e
    have ha := mpaAdd_ok (mpaMsui (x :: w.take (b.length - 1)) b quot 0).1 b 0 (by decide) hm.2.2.1 hb
    exact ⟨wsub_lt _ _, ha.2.1, by show (mpaAdd _ _ _).1.length = _; rw [ha.1, hm.2.1]; omega⟩
  · subst e
    exact ⟨hq, hm.2.2.1, hm.2.1⟩

theorem divRounds_words {b : List Nat} (hb : Limbs b) (hb0 : b.length ≠ 0) : ∀ low w q p, Limbs low → Limbs w → w.length = b.length → Limbs q → divRounds b low w q = some p →
    Limbs p.1 ∧ Limbs p.2 ∧ p.1.length = low.length + q.length ∧ p.2.length = b.length
  | [], w, q, p, _, hw, hl, hq, e => by cases e; exact ⟨hq, hw, by simp, hl⟩
  | x :: low, w, q, p, hlow, hw, hl, hq, e => by
    simp only [divRounds] at e
    obtain ⟨r, er, e⟩ := Option.bind_eq_some_iff.1 e
    have hr := divRound_words hb hw hl hb0 hlow.head er
    have := divRounds_words hb hb0 low r.2 (r.1 :: q) p hlow.tail hr.2.1 hr.2.2 (Limbs.cons hr.1 hq) e
    exact ⟨this.1, this.2.1, by rw [this.2.2.1]; simp; omega, this.2.2.2⟩

theorem mpaDivrem_words {a b : List Nat} {p : Bool × List Nat × List Nat} (ha : Limbs a) (hb : Limbs b) (hb0 : b.length ≠ 0) (hl : b.length ≤ a.length) (e : mpaDivrem a b = some p) :
    Limbs p.2.1 ∧ Limbs p.2.2 ∧ p.2.1.length = a.length - b.length ∧ p.2.2.length = b.length := by
  unfold mpaDivrem at e
  dsimp only at e
  obtain ⟨f, ef, e⟩ := Option.bind_eq_some_iff.1 e
  obtain ⟨r, er, e⟩ := Option.map_eq_some_iff.1 e
  subst e
  have hf : Limbs f.2 ∧ f.2.length = b.length := by
    have hd : Limbs (a.drop (a.length - b.length)) := ha.drop _
    have hdl : (a.drop (a.length - b.length)).length = b.length := by simp; omega
    unfold divFirst at ef
    dsimp only at ef
    split at ef
    · split at ef
      · have hs := mpaSub_ok (a.drop (a.length - b.length)) b 0 (by decide) hd hb (by omega)
        split at ef
        · cases ef
        · cases ef; exact ⟨hs.2.1, by rw [hs.1, hdl]⟩
      · cases ef; exact ⟨hd, hdl⟩
    · cases ef; exact ⟨hd, hdl⟩
  have := divRounds_words hb hb0 _ _ _ _ (ha.take _).reverse hf.1 hf.2 Limbs.nil er
  refine ⟨this.1, this.2.1, ?_, this.2.2.2⟩
  rw [this.2.2.1]; simp

theorem divLong_good {a b : List Nat} {p : List Nat × List Nat} (ha : Limbs a) (hb : Limbs b) (hb0 : b.length ≠ 0) (hl : b.length ≤ a.length) (e : divLong a b = some p) :
    Good p.1 (a.length - b.length + 1) ∧ Good p.2 b.length := by
  unfold divLong at e
  obtain ⟨r, er, e⟩ := Option.bind_eq_some_iff.1 e
  have h := mpaDivrem_words ha hb hb0 hl er
  dsimp only at e
  generalize hqq : (if r.1 = true then r.2.1 ++ [1] else r.2.1) = qq at e
  split at e
  · cases e
  · next hs =>
    cases e
    subst hqq
    refine ⟨?_, good_strip h.2.1 (Nat.le_of_eq h.2.2.2)⟩
    have hq : Limbs (if r.1 = true then r.2.1 ++ [1] else r.2.1) ∧ (if r.1 = true then r.2.1 ++ [1] else r.2.1).length ≤ a.length - b.length + 1 := by
      split
      · exact ⟨h.1.append (Limbs.cons (by decide) Limbs.nil), by simp [h.2.2.1]⟩
      · exact ⟨h.1, by rw [h.2.2.1]; omega⟩
    have := good_strip hq.1 hq.2
    rwa [Decidable.not_not.1 hs] at this

/-! ## What a call keeps -/

/-- All objects are proper afterwards, only those in `D` may have changed, and if there is only one of them nothing changed when memory was refused. -/
structure Keeps (D : List Nat) (S : Store) (r : Store × Code) : Prop where
  wf : ∀ i, Wf (r.1 i)
  frame : ∀ i, i ∉ D → r.1 i = S i
  refused : D.length = 1 → r.2 = .nomem → r.1 = S

theorem keeps_same {D : List Nat} {S : Store} (h : ∀ i, Wf (S i)) (c : Code) : Keeps D S (S, c) := ⟨h, fun _ _ => rfl, fun _ _ => rfl⟩

theorem store_wf {S : Store} {d cap n : Nat} {l : List Nat} (h : ∀ i, Wf (S i)) (hg : Good l n) (hn : n ≤ cap) : ∀ i, Wf (store S d cap l i) := by
  intro i
  by_cases e : i = d
  · subst e; rw [store_self]; exact ⟨hg.words, hg.top, Nat.le_trans hg.len hn⟩
  · rw [store_ne e]; exact h i

theorem store_keeps {D : List Nat} {S : Store} {d cap n : Nat} {l : List Nat} (h : ∀ i, Wf (S i)) (hd : d ∈ D) (hg : Good l n) (hn : n ≤ cap) : Keeps D S (store S d cap l, .ok) :=
  ⟨store_wf h hg hn, fun i hi => store_ne (fun e => hi (by rw [e]; exact hd)), fun _ e => by cases e⟩

theorem assign_keeps {D : List Nat} {S : Store} {g : Grant} {d n : Nat} {l : List Nat} (h : ∀ i, Wf (S i)) (hd : d ∈ D) (hg : Good l n) : Keeps D S (assign S g d n l) := by
  rcases assign_cases S g d n l with ⟨cap, h1, h2⟩ | ⟨h1, _, _⟩
  · rw [h2]; exact store_keeps h hd hg h1
  · rw [h1]; exact keeps_same h _

theorem plus_keeps {D : List Nat} {S : Store} {r : Store × Code} {d : Nat} (h : Keeps D S r) (hd : d ∈ D) (p : Store → Bool) : Keeps D S (thenPlus r d p) := by
  unfold thenPlus
  split
  · refine ⟨fun i => ?_, fun i hi => ?_, fun _ e => by cases e⟩
    · by_cases e : i = d
      · subst e; show Wf (setPlus r.1 i (p r.1) i); rw [setPlus_self]; exact ⟨(h.wf i).words, (h.wf i).top, (h.wf i).room⟩
      · show Wf (setPlus r.1 d (p r.1) i); rw [setPlus_ne e]; exact h.wf i
    · show setPlus r.1 d (p r.1) i = S i
      rw [setPlus_ne (fun e => hi (by rw [e]; exact hd))]; exact h.frame i hi
  · exact h

/-- A second step after one that succeeded. -/
theorem keeps_trans {D : List Nat} {S : Store} {r r' : Store × Code} (h : Keeps D S r) (h' : Keeps D r.1 r') (hc : D.length = 1 → r'.2 = .nomem → r.1 = S) : Keeps D S r' :=
  ⟨h'.wf, fun i hi => (h'.frame i hi).trans (h.frame i hi), fun h1 h2 => (h'.refused h1 h2).trans (hc h1 h2)⟩

/-- The code may be replaced by success. -/
theorem keeps_ok {D : List Nat} {S : Store} {r : Store × Code} (h : Keeps D S r) : Keeps D S (r.1, .ok) := ⟨h.wf, h.frame, fun _ e => by cases e⟩

theorem seti_keeps {D : List Nat} {S : Store} {g : Grant} {d vi : Nat} (h : ∀ i, Wf (S i)) (hd : d ∈ D) (hv : vi < W64) : Keeps D S (mpiSeti S g d vi) := by
  refine assign_keeps h hd ?_
  by_cases c : vi = 0
  · subst c; exact good_nil _
  · rw [if_pos c, if_pos c]
    exact ⟨Limbs.cons hv Limbs.nil, by simpa using c, by simp⟩

theorem copy_keeps {D : List Nat} {S : Store} {g : Grant} {d : Nat} {l : List Nat} (h : ∀ i, Wf (S i)) (hd : d ∈ D) (hl : Limbs l) : Keeps D S (mpiCopy S g d l) :=
  assign_keeps h hd (good_strip hl (Nat.le_refl _))

theorem set_keeps {D : List Nat} {S : Store} {g : Grant} {d s : Nat} (h : ∀ i, Wf (S i)) (hd : d ∈ D) : Keeps D S (mpiSet S g d s) := by
  unfold mpiSet
  split
  · exact keeps_same h _
  · exact copy_keeps h hd (h s).words

theorem addi_keeps {D : List Nat} {S : Store} {g : Grant} {d a vi : Nat} (h : ∀ i, Wf (S i)) (hd : d ∈ D) (hv : vi < W64) : Keeps D S (mpiAddi S g d a vi) := by
  unfold mpiAddi
  dsimp only
  split
  · exact seti_keeps h hd hv
  · next hl =>
    have ok := mpaAddi_ok (h a).words (fun e => hl (by rw [e]; rfl)) hv
    exact assign_keeps h hd (good_strip (ok.2.2.1.append (Limbs.cons (Nat.lt_of_le_of_lt ok.2.2.2 (by decide)) Limbs.nil)) (by simp [ok.2.1]))

theorem add_keeps {D : List Nat} {S : Store} {g : Grant} {d a b : Nat} {r : Store × Code} (h : ∀ i, Wf (S i)) (hd : d ∈ D) (e : mpiAdd S g d a b = some r) : Keeps D S r := by
  unfold mpiAdd at e
  dsimp only at e
  split at e
  · cases e; exact set_keeps h hd
  split at e
  · cases e; exact set_keeps h hd
  split at e
  · cases e; exact addi_keeps h hd (head_lt (h b).words)
  split at e
  · cases e
  · cases e
    have ok := mpaAdd_ok (S a).limbs (S b).limbs 0 (by decide) (h a).words (h b).words
    exact assign_keeps h hd (good_strip (ok.2.1.append (Limbs.cons (Nat.lt_of_le_of_lt ok.2.2.1 (by decide)) Limbs.nil)) (by simp [ok.1]))

theorem subi_keeps {D : List Nat} {S : Store} {g : Grant} {d a vi : Nat} {r : Store × Code} (h : ∀ i, Wf (S i)) (hd : d ∈ D) (hv : vi < W64) (e : mpiSubi S g d a vi = some r) :
    Keeps D S r := by
  unfold mpiSubi at e
  dsimp only at e
  split at e
  · cases e
  · next hl =>
    split at e
    · cases e; exact keeps_same h _
    · next cap m hf =>
      have ok := mpaSubi_ok (h a).words (fun e => hl (by rw [e]; rfl)) hv
      split at e
      · cases e
      · cases e; exact store_keeps h hd (good_strip ok.2.2.1 (Nat.le_of_eq ok.2.1)) (fit_ok hf).1

theorem sub_keeps {D : List Nat} {S : Store} {g : Grant} {d a b : Nat} {r : Store × Code} (h : ∀ i, Wf (S i)) (hd : d ∈ D) (e : mpiSub S g d a b = some r) : Keeps D S r := by
  unfold mpiSub at e
  dsimp only at e
  split at e
  · cases e; exact set_keeps h hd
  split at e
  · exact subi_keeps h hd (head_lt (h b).words) e
  split at e
  · cases e
  · next hlen =>
    split at e
    · cases e; exact keeps_same h _
    · next cap m hf =>
      split at e
      · cases e
      · have ok := mpaSub_ok (S a).limbs (S b).limbs 0 (by decide) (h a).words (h b).words (by omega)
        split at e
        · cases e
        · cases e; exact store_keeps h hd (good_strip ok.2.1 (Nat.le_of_eq ok.1)) (fit_ok hf).1

theorem muli_keeps {D : List Nat} {S : Store} {g : Grant} {d a vi : Nat} (h : ∀ i, Wf (S i)) (hd : d ∈ D) (hv : vi < W64) : Keeps D S (mpiMuli S g d a vi) := by
  unfold mpiMuli
  dsimp only
  split
  · exact seti_keeps h hd (by decide)
  · have ok := mpaMuli_ok vi hv (S a).limbs 0 (by decide) (h a).words
    exact assign_keeps h hd (good_strip (ok.2.2.1.append (Limbs.cons ok.2.2.2 Limbs.nil)) (by simp [ok.2.1]))

theorem mul_keeps {D : List Nat} {S : Store} {g : Grant} {d a b : Nat} {r : Store × Code} (h : ∀ i, Wf (S i)) (hd : d ∈ D) (e : mpiMul S g d a b = some r) : Keeps D S r := by
  unfold mpiMul at e
  dsimp only at e
  split at e
  · cases e; exact seti_keeps h hd (by decide)
  split at e
  · cases e; exact seti_keeps h hd (by decide)
  split at e
  · cases e; exact muli_keeps h hd (head_lt (h b).words)
  split at e
  · cases e
    unfold mpiMulBuf
    split
    · refine keeps_ok (copy_keeps h hd ?_)
      exact (mpaMul_good (a := .own (S a).limbs) (h a).words (fun _ => by decide)).words
    · exact keeps_same h _
  split at e
  · cases e
  · cases e
    refine assign_keeps h hd (mpaMul_good ?_ (fun k => Limbs.getD (h d).words k))
    split
    · trivial
    · exact (h a).words

theorem setTwo_keeps {D : List Nat} {S : Store} {g : Grant} {q r v : Nat} (h : ∀ i, Wf (S i)) (hq : q ∈ D) (hr : r ∈ D) (hD : D.length ≠ 1) (hv : v < W64) :
    Keeps D S (setTwo S g q v r 0) := by
  unfold setTwo
  dsimp only
  have h1 : Keeps D S (mpiSeti S g q v) := seti_keeps h hq hv
  split
  · exact h1
  · exact keeps_trans h1 (seti_keeps h1.wf hr (by decide)) (fun e => absurd e hD)

theorem divi_keeps {D : List Nat} {S : Store} {g : Grant} {q r a vi : Nat} {s : Store × Code} (h : ∀ i, Wf (S i)) (hq : q ∈ D) (hr : r ∈ D) (hD : D.length ≠ 1)
    (e : mpiDivi S g q r a vi = some s) : Keeps D S s := by
  unfold mpiDivi at e
  dsimp only at e
  split at e
  · cases e; exact keeps_same h _
  split at e
  · cases e; exact setTwo_keeps h hq hr hD (by decide)
  · next hl =>
    split at e
    · cases e; exact keeps_same h _
    · next cap m hf =>
      obtain ⟨p, ep, e⟩ := Option.map_eq_some_iff.1 e
      subst e
      have ok := mpaDivmodi_words (h a).words hl ep
      have h1 : Keeps D S (store S q cap (strip p.1), .ok) := store_keeps h hq (good_strip ok.1 (Nat.le_of_eq ok.2.2)) (fit_ok hf).1
      split
      · exact keeps_ok (keeps_trans h1 (seti_keeps h1.wf hr ok.2.1) (fun e => absurd e hD))
      · exact h1

theorem modi_keeps {D : List Nat} {S : Store} {g : Grant} {r a vi : Nat} {s : Store × Code} (h : ∀ i, Wf (S i)) (hr : r ∈ D) (e : mpiModi S g r a vi = some s) : Keeps D S s := by
  unfold mpiModi at e
  dsimp only at e
  split at e
  · cases e; exact keeps_same h _
  split at e
  · cases e; exact seti_keeps h hr (by decide)
  · obtain ⟨p, ep, e⟩ := Option.map_eq_some_iff.1 e
    subst e
    exact keeps_ok (seti_keeps h hr (mpaModi_words (h a).words ep))

/-- After copying a number into `d` the limbs are those of the source. -/
theorem set_limbs {S : Store} {g : Grant} {d s : Nat} (h : Wf (S s)) (e : (mpiSet S g d s).2 = .ok) : ((mpiSet S g d s).1 d).limbs = (S s).limbs := by
  rcases mpiSet_puts (d := d) g _ h (Nat.le_refl _) with ⟨cap, _, h2⟩ | ⟨h1, _⟩
  · rw [h2]; show (store _ _ _ _ d).limbs = _; rw [store_self]
  · rw [h1] at e; cases e

theorem div_keeps {D : List Nat} {S : Store} {g : Grant} {q r a b : Nat} {s : Store × Code} (h : ∀ i, Wf (S i)) (hq : q ∈ D) (hr : r ∈ D) (hD : D.length ≠ 1)
    (e : mpiDiv S g q r a b = some s) : Keeps D S s := by
  unfold mpiDiv at e
  dsimp only at e
  split at e
  · cases e; exact keeps_same h _
  split at e
  · exact divi_keeps h hq hr hD e
  split at e
  · cases e; exact setTwo_keeps h hq hr hD (by decide)
  split at e
  · cases e
  split at e
  · cases e
  next hb0 hb1 ha0 hlen hne =>
  have h1 : Keeps D S (mpiSet S g r a) := set_keeps h hr
  split at e
  · cases e; exact h1
  next hok =>
  have hok : (mpiSet S g r a).2 = .ok := Decidable.not_not.1 hok
  have hrl := set_limbs (h a) hok
  have hroom : (S b).limbs.length ≤ ((mpiSet S g r a).1 r).cap := by
    have := (h1.wf r).room
    rw [hrl] at this; omega
  generalize hS : (mpiSet S g r a).1 = S1 at *
  have hw1 : ∀ i, Wf (S1 i) := fun i => by rw [← hS]; exact h1.wf i
  have h1' : Keeps D S (S1, Code.ok) := by rw [← hS]; exact keeps_ok h1
  refine keeps_trans h1' ?_ (fun e => absurd e hD)
  show Keeps D S1 s
  unfold mpiDivEnd at e
  dsimp only at e
  split at e
  · split at e
    · obtain ⟨p, ep, e⟩ := Option.map_eq_some_iff.1 e
      subst e
      have ok := divLong_good (h a).words (h b).words hb0 (by omega) ep
      have h2 : Keeps D S1 (store S1 r (S1 r).cap p.2, .ok) := store_keeps hw1 hr ok.2 hroom
      exact keeps_ok (keeps_trans h2 (copy_keeps h2.wf hq ok.1.words) (fun e => absurd e hD))
    · cases e; exact keeps_same hw1 _
  · split at e
    · cases e; exact keeps_same hw1 _
    · next cap m hf =>
      obtain ⟨p, ep, e⟩ := Option.map_eq_some_iff.1 e
      subst e
      have ok := divLong_good (h a).words (h b).words hb0 (by omega) ep
      have h2 : Keeps D S1 (store S1 r (S1 r).cap p.2, .ok) := store_keeps hw1 hr ok.2 hroom
      have hf1 := (fit_ok hf).1
      exact keeps_trans h2 (store_keeps h2.wf hq ok.1 (show _ ≤ cap by omega)) (fun e => absurd e hD)

theorem mod_keeps {D : List Nat} {S : Store} {g : Grant} {r a b : Nat} {s : Store × Code} (h : ∀ i, Wf (S i)) (hr : r ∈ D) (e : mpiMod S g r a b = some s) : Keeps D S s := by
  unfold mpiMod at e
  dsimp only at e
  split at e
  · cases e; exact keeps_same h _
  split at e
  · exact modi_keeps h hr e
  split at e
  · cases e; exact seti_keeps h hr (by decide)
  split at e
  · cases e
  split at e
  · cases e
  next hb0 hb1 ha0 hlen hne =>
  have h1 : Keeps D S (mpiSet S g r a) := set_keeps h hr
  split at e
  · cases e; exact h1
  next hok =>
  have hok : (mpiSet S g r a).2 = .ok := Decidable.not_not.1 hok
  have hrl := set_limbs (h a) hok
  have hroom : (S b).limbs.length ≤ ((mpiSet S g r a).1 r).cap := by
    have := (h1.wf r).room
    rw [hrl] at this; omega
  obtain ⟨p, ep, e⟩ := Option.map_eq_some_iff.1 e
  subst e
  have ok := mpaDivrem_words (h a).words (h b).words hb0 (by omega) ep
  exact keeps_trans h1 (store_keeps h1.wf hr (good_strip ok.2.1 (Nat.le_of_eq ok.2.2.2)) hroom) (fun _ e => by cases e)

theorem words_good (m : Bitmap.Mem) (n : Nat) : Good (strip (ofWords (m.take n))) n :=
  good_strip (ofWords_all _).1 (by rw [(ofWords_all _).2.1, List.length_take]; omega)

/-- Every call on proper objects that returns leaves proper objects. -/
theorem op_keeps {S : Store} {g : Grant} {res : Store × Code} (o : Op) (h : ∀ i, Wf (S i)) (hok : o.Ok) (e : o.run S g = some res) : Keeps o.results S res := by
  have addOrd_keeps : ∀ {d a b : Nat} {r}, addOrd S g d a b = some r → Keeps [d] S r := by
    intro d a b r e
    unfold addOrd at e
    split at e
    · obtain ⟨p, ep, e⟩ := Option.map_eq_some_iff.1 e
      subst e; exact plus_keeps (add_keeps h (by simp) ep) (by simp) _
    · split at e
      · cases e; exact plus_keeps (seti_keeps h (by simp) (by decide)) (by simp) _
      · obtain ⟨p, ep, e⟩ := Option.map_eq_some_iff.1 e
        subst e; exact plus_keeps (sub_keeps h (by simp) ep) (by simp) _
      · obtain ⟨p, ep, e⟩ := Option.map_eq_some_iff.1 e
        subst e; exact plus_keeps (sub_keeps h (by simp) ep) (by simp) _
  have mulOrd_keeps : ∀ {d a b : Nat} {r}, mulOrd S g d a b = some r → Keeps [d] S r := by
    intro d a b r e
    unfold mulOrd at e
    obtain ⟨p, ep, e⟩ := Option.map_eq_some_iff.1 e
    subst e; exact plus_keeps (mul_keeps h (by simp) ep) (by simp) _
  have divLess_keeps : ∀ {q r a : Nat}, Keeps [q, r] S (divLess S g q r a) := by
    intro q r a
    unfold divLess
    dsimp only
    have h1 : Keeps [q, r] S (if r ≠ a then thenPlus (mpiSet S g r a) r (fun s => (s a).plus) else (S, .ok)) := by
      split
      · exact plus_keeps (set_keeps h (by simp)) (by simp) _
      · exact keeps_same h _
    generalize (if r ≠ a then thenPlus (mpiSet S g r a) r (fun s => (s a).plus) else (S, Code.ok)) = r1 at h1
    split
    · exact h1
    · exact plus_keeps (keeps_trans h1 (seti_keeps h1.wf (by simp) (by decide)) (fun e => by simp at e)) (by simp) _
  have modLess_keeps : ∀ {r a : Nat}, Keeps [r] S (modLess S g r a) := by
    intro r a
    unfold modLess
    split
    · exact plus_keeps (set_keeps h (by simp)) (by simp) _
    · exact keeps_same h _
  cases o with
  | add d a b =>
    simp only [Op.run, Mpi.add] at e
    split at e <;> exact addOrd_keeps e
  | addi d a vi =>
    simp only [Op.run, Mpi.addi] at e
    split at e
    · cases e; exact plus_keeps (addi_keeps h (by simp [Op.results]) hok) (by simp [Op.results]) _
    · split at e
      · cases e; exact plus_keeps (seti_keeps h (by simp [Op.results]) (by decide)) (by simp [Op.results]) _
      · split at e
        · cases e
        · cases e; exact plus_keeps (seti_keeps h (by simp [Op.results]) (wsub_lt _ _)) (by simp [Op.results]) _
      · obtain ⟨p, ep, e⟩ := Option.map_eq_some_iff.1 e
        rw [← e]; exact plus_keeps (subi_keeps h (by simp [Op.results]) hok ep) (by simp [Op.results]) _
  | sub d a b =>
    simp only [Op.run, Mpi.sub] at e
    split at e
    · obtain ⟨p, ep, e⟩ := Option.map_eq_some_iff.1 e
      rw [← e]; exact plus_keeps (add_keeps h (by simp [Op.results]) ep) (by simp [Op.results]) _
    · split at e
      · cases e; exact plus_keeps (seti_keeps h (by simp [Op.results]) (by decide)) (by simp [Op.results]) _
      · obtain ⟨p, ep, e⟩ := Option.map_eq_some_iff.1 e
        rw [← e]; exact plus_keeps (sub_keeps h (by simp [Op.results]) ep) (by simp [Op.results]) _
      · obtain ⟨p, ep, e⟩ := Option.map_eq_some_iff.1 e
        rw [← e]; exact plus_keeps (sub_keeps h (by simp [Op.results]) ep) (by simp [Op.results]) _
  | subi d a vi =>
    simp only [Op.run, Mpi.subi] at e
    split at e
    · cases e; exact plus_keeps (addi_keeps h (by simp [Op.results]) hok) (by simp [Op.results]) _
    · split at e
      · cases e; exact plus_keeps (seti_keeps h (by simp [Op.results]) (by decide)) (by simp [Op.results]) _
      · split at e
        · cases e
        · cases e; exact plus_keeps (seti_keeps h (by simp [Op.results]) (wsub_lt _ _)) (by simp [Op.results]) _
      · obtain ⟨p, ep, e⟩ := Option.map_eq_some_iff.1 e
        rw [← e]; exact plus_keeps (subi_keeps h (by simp [Op.results]) hok ep) (by simp [Op.results]) _
  | mul d a b =>
    simp only [Op.run, Mpi.mul] at e
    split at e <;> exact mulOrd_keeps e
  | muli d a vi =>
    simp only [Op.run] at e
    cases e; exact plus_keeps (muli_keeps h (by simp [Op.results]) hok) (by simp [Op.results]) _
  | div q r a b =>
    simp only [Op.run, Mpi.div] at e
    split at e
    · cases e; exact plus_keeps (plus_keeps (setTwo_keeps h (by simp [Op.results]) (by simp [Op.results]) (by simp [Op.results]) (by decide)) (by simp [Op.results]) _) (by simp [Op.results]) _
    · cases e; exact divLess_keeps
    · obtain ⟨p, ep, e⟩ := Option.map_eq_some_iff.1 e
      rw [← e]
      exact plus_keeps (plus_keeps (div_keeps h (by simp [Op.results]) (by simp [Op.results]) (by simp [Op.results]) ep) (by simp [Op.results]) _) (by simp [Op.results]) _
  | divi q r a vi =>
    simp only [Op.run, Mpi.divi] at e
    split at e
    · cases e; exact plus_keeps (plus_keeps (setTwo_keeps h (by simp [Op.results]) (by simp [Op.results]) (by simp [Op.results]) (by decide)) (by simp [Op.results]) _) (by simp [Op.results]) _
    · cases e; exact divLess_keeps
    · obtain ⟨p, ep, e⟩ := Option.map_eq_some_iff.1 e
      rw [← e]
      exact plus_keeps (plus_keeps (divi_keeps h (by simp [Op.results]) (by simp [Op.results]) (by simp [Op.results]) ep) (by simp [Op.results]) _) (by simp [Op.results]) _
  | mod r a b =>
    simp only [Op.run, Mpi.mod] at e
    split at e
    · cases e; exact plus_keeps (seti_keeps h (by simp [Op.results]) (by decide)) (by simp [Op.results]) _
    · cases e; exact modLess_keeps
    · obtain ⟨p, ep, e⟩ := Option.map_eq_some_iff.1 e
      rw [← e]
      exact plus_keeps (mod_keeps h (by simp [Op.results]) ep) (by simp [Op.results]) _
  | modi r a vi =>
    simp only [Op.run, Mpi.modi] at e
    split at e
    · cases e; exact plus_keeps (seti_keeps h (by simp [Op.results]) (by decide)) (by simp [Op.results]) _
    · cases e; exact modLess_keeps
    · obtain ⟨p, ep, e⟩ := Option.map_eq_some_iff.1 e
      rw [← e]
      exact plus_keeps (modi_keeps h (by simp [Op.results]) ep) (by simp [Op.results]) _
  | and j d a b =>
    simp only [Op.run, Mpi.and_] at e
    obtain ⟨p, ep, e⟩ := Option.map_eq_some_iff.1 e
    rw [← e]
    refine plus_keeps ?_ (by simp [Op.results]) _
    unfold mpiAnd at ep
    dsimp only at ep
    split at ep
    · cases ep; exact seti_keeps h (by simp [Op.results]) (by decide)
    · split at ep
      · cases ep; exact keeps_same h _
      · next cap m hf =>
        obtain ⟨t, _, ep⟩ := Option.map_eq_some_iff.1 ep
        subst ep; exact store_keeps h (by simp [Op.results]) (words_good _ _) (fit_ok hf).1
  | or j d a b =>
    simp only [Op.run, Mpi.or_] at e
    obtain ⟨p, ep, e⟩ := Option.map_eq_some_iff.1 e
    rw [← e]
    refine plus_keeps ?_ (by simp [Op.results]) _
    unfold mpiOr at ep
    dsimp only at ep
    split at ep
    · cases ep; exact seti_keeps h (by simp [Op.results]) (by decide)
    · split at ep
      · cases ep; exact keeps_same h _
      · next cap m hf =>
        obtain ⟨t, _, ep⟩ := Option.bind_eq_some_iff.1 ep
        obtain ⟨t', _, ep⟩ := Option.bind_eq_some_iff.1 ep
        split at ep
        · cases ep
        · cases ep; exact store_keeps h (by simp [Op.results]) (words_good _ _) (fit_ok hf).1
  | xor j d a b =>
    simp only [Op.run, Mpi.xor_] at e
    obtain ⟨p, ep, e⟩ := Option.map_eq_some_iff.1 e
    rw [← e]
    refine plus_keeps ?_ (by simp [Op.results]) _
    unfold mpiXor at ep
    dsimp only at ep
    split at ep
    · cases ep; exact seti_keeps h (by simp [Op.results]) (by decide)
    · split at ep
      · cases ep; exact keeps_same h _
      · next cap m hf =>
        obtain ⟨t, _, ep⟩ := Option.bind_eq_some_iff.1 ep
        obtain ⟨t', _, ep⟩ := Option.map_eq_some_iff.1 ep
        subst ep; exact store_keeps h (by simp [Op.results]) (words_good _ _) (fit_ok hf).1
  | shli j d a n =>
    simp only [Op.run, Mpi.shli] at e
    obtain ⟨p, ep, e⟩ := Option.map_eq_some_iff.1 e
    rw [← e]
    refine plus_keeps ?_ (by simp [Op.results]) _
    unfold mpiShli at ep
    dsimp only at ep
    split at ep
    · cases ep; exact set_keeps h (by simp [Op.results])
    split at ep
    · cases ep; exact seti_keeps h (by simp [Op.results]) (by decide)
    · split at ep
      · cases ep; exact keeps_same h _
      · next cap m hf =>
        obtain ⟨t, _, ep⟩ := Option.bind_eq_some_iff.1 ep
        obtain ⟨t', _, ep⟩ := Option.bind_eq_some_iff.1 ep
        obtain ⟨t2, _, ep⟩ := Option.map_eq_some_iff.1 ep
        subst ep; exact store_keeps h (by simp [Op.results]) (words_good _ _) (fit_ok hf).1
  | shri j d a n =>
    simp only [Op.run, Mpi.shri] at e
    obtain ⟨p, ep, e⟩ := Option.map_eq_some_iff.1 e
    rw [← e]
    refine plus_keeps ?_ (by simp [Op.results]) _
    unfold mpiShri at ep
    dsimp only at ep
    split at ep
    · cases ep; exact set_keeps h (by simp [Op.results])
    split at ep
    · cases ep; exact seti_keeps h (by simp [Op.results]) (by decide)
    · split at ep
      · cases ep; exact keeps_same h _
      · next cap m hf =>
        obtain ⟨t, _, ep⟩ := Option.map_eq_some_iff.1 ep
        subst ep; exact store_keeps h (by simp [Op.results]) (words_good _ _) (fit_ok hf).1
  | bseti d bit =>
    simp only [Op.run] at e
    obtain ⟨S1, c1, e1, hf, hc, _⟩ := bseti_partial S g d bit (h d) hok
    rw [e1] at e
    cases e
    have hfr : ∀ i, i ∉ [d] → S1 i = S i := fun i hi => hf i (by simpa using hi)
    rcases hc with ⟨rfl, hw, _⟩ | ⟨rfl, rfl⟩
    · refine ⟨fun i => ?_, hfr, fun _ e => by cases e⟩
      by_cases c : i = d
      · subst c; exact hw
      · show Wf (S1 i); rw [hf i c]; exact h i
    · exact keeps_same h _
  | bclri d bit =>
    simp only [Op.run, Mpi.bclri] at e
    split at e
    · cases e; exact keeps_same h _
    · obtain ⟨m, em, e⟩ := Option.map_eq_some_iff.1 e
      cases e
      have hl : m.length = (S d).limbs.length := by
        unfold Bitmap.bitClr Bitmap.wr at em
        simp only [Option.bind_eq_bind] at em
        obtain ⟨v, _, em⟩ := Option.bind_eq_some_iff.1 em
        split at em
        · cases em; simp [toWords]
        · cases em
      exact store_keeps h (by simp [Op.results]) (good_strip (ofWords_all m).1 (by rw [(ofWords_all m).2.1, hl]; exact Nat.le_refl _)) (h d).room
  | seti d vi =>
    simp only [Op.run] at e
    cases e; exact plus_keeps (seti_keeps h (by simp [Op.results]) hok) (by simp [Op.results]) _
  | set d s =>
    simp only [Op.run] at e
    cases e; exact plus_keeps (set_keeps h (by simp [Op.results])) (by simp [Op.results]) _
  | «import» d l sign =>
    simp only [Op.run] at e
    cases e; exact plus_keeps (copy_keeps h (by simp [Op.results]) hok) (by simp [Op.results]) _
  | release d =>
    simp only [Op.run] at e
    cases e; exact store_keeps h (by simp [Op.results]) (good_nil 0) (Nat.le_refl _)

/-- **C120, partial.** One call on proper objects: if it returns, every object is proper afterwards — its limbs are machine words without a leading zero and lie inside its
block —, only the results of the call have changed, and a call with one result that reports missing memory changed nothing. This holds for all operands, the objects being
the same or not, and whatever the allocator answers; also where the result is not the number it should be. -/
theorem call_proper_partial {S S' : Store} {g : Grant} {c : Code} (o : Op) (h : ∀ i, Wf (S i)) (hok : o.Ok) (e : o.run S g = some (S', c)) :
    (∀ i, Wf (S' i)) ∧ (∀ i, i ∉ o.results → S' i = S i) ∧ (o.results.length = 1 → c = .nomem → S' = S) :=
  have k := op_keeps o h hok e
  ⟨k.wf, k.frame, k.refused⟩

/-- **C120, partial.** A program that computes with big integers, from the first call on, has only proper objects at all times. Missing: setting a bit with a number of 2^32 or more,
see `improper_violated`. -/
theorem program_proper_partial : ∀ (prog : List (Op × Grant)) {S S' : Store}, (∀ i, Wf (S i)) → (∀ p ∈ prog, p.1.Ok) → runAll S prog = some S' → ∀ i, Wf (S' i)
  | [], _, _, h, _, e => by cases e; exact h
  | (o, g) :: rest, S, S', h, hok, e => by
    simp only [runAll] at e
    obtain ⟨⟨S1, c⟩, e1, e⟩ := Option.bind_eq_some_iff.1 e
    exact program_proper_partial rest (call_proper_partial o h (hok (o, g) (by simp)) e1).1 (fun p hp => hok p (by simp [hp])) e

/-- Fresh objects, mpi.h:30-36, are proper. -/
theorem fresh_proper : ∀ i : Nat, Wf ((fun _ => init) i) := fun _ => ⟨Limbs.nil, show init.limbs.getLast? ≠ some 0 by decide, Nat.le_refl _⟩

/-- A proper number of two limbs or more is at least 2^64. -/
theorem val_two {l : List Nat} {n : Nat} (h : l.getLast? ≠ some 0) (hl : l.length = n + 2) : W64 ≤ val l := by
  have h1 := val_ge h (by intro e; rw [e] at hl; cases hl)
  rw [hl, show n + 2 - 1 = n + 1 by omega, Nat.pow_succ] at h1
  have : 1 ≤ W64 ^ n := Nat.pow_pos (by decide)
  have h2 : 1 * W64 ≤ W64 ^ n * W64 := Nat.mul_le_mul_right _ this
  rw [Nat.one_mul] at h2
  exact Nat.le_trans h2 h1

/-- **C120 fails** for bit numbers of 2^32 and more: setting one leaves a number with leading zero limbs. -/
theorem improper_violated : ∃ S', Op.run (fun _ => init) generous (.bseti 0 (2 ^ 32)) = some (S', .ok) ∧ ¬ Wf (S' 0) := by
  obtain ⟨S', e, hv, hl⟩ := bseti_violated
  refine ⟨S', e, fun h => ?_⟩
  have h1 := val_two (n := 2 ^ 26 - 1) h.top (hl.trans (by decide))
  have h2 : val (S' 0).limbs = 1 := by
    unfold value at hv
    split at hv <;> omega
  rw [h2] at h1
  exact absurd h1 (by decide)

/-- A program with aliased operands, a refused block and a division by a divisor that is not normalised. -/
def exProg : List (Op × Grant) :=
  [(.seti 0 7, generous), (.shli (fun _ => 3) 1 0 64, generous), (.add 1 1 0, generous), (.sub 1 0 1, generous), (.mul 2 1 1, generous), (.seti 5 1, ⟨fun _ => false, false⟩),
   (.mul 2 2 2, ⟨fun _ => false, true⟩), (.divi 3 4 2 10, generous), (.xor (fun _ => 0) 3 3 2, generous), (.bclri 3 70, generous), (.release 2, generous)]

example : ∀ p ∈ exProg, p.1.Ok := by
  simp [exProg, Op.Ok]

example : (runAll (fun _ => init) exProg).map (fun S => [(S 0).limbs.length, (S 1).limbs.length, (S 2).limbs.length, (S 3).limbs.length, (S 5).limbs.length]) = some [1, 2, 0, 5, 0] := by
  decide +kernel

end Bfdev.Mpi.History

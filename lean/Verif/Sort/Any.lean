import Verif.Sort.Props
/-!
The array sort with a comparison that answers anything (C107): the `k`-th call of the callback is `cmp k`, so its answers may
depend on everything that happened before. The model is that of `Sort/Model.lean` with the number of calls made so far carried
along; `countSort_plain` shows that it is the same function when the answers depend on the elements only.
-/
namespace Bfdev.Sort

section
variable {α : Type} (cmp : Nat → α → α → Int)

/-- `descend` with the calls counted, src/sort.c:54-56. -/
def countDescend (cells size : Nat) (arr : List α) : Nat → Nat → Nat → Option (Nat × Nat × Nat × Nat)
  | 0, _, _ => none
  | fuel + 1, k, idx2 =>
    let idx3 := w64 (2 * idx2 + cells)
    let idx4 := w64 (idx3 + cells)
    if idx4 < size then do
      let x ← get cells arr idx3
      let y ← get cells arr idx4
      countDescend cells size arr fuel (k + 1) (if cmp k x y ≥ 0 then idx3 else idx4)
    else some (idx2, idx3, idx4, k)

/-- `climb` with the calls counted, src/sort.c:61-62. -/
def countClimb (cells lsbit : Nat) (arr : List α) (idx1 : Nat) : Nat → Nat → Nat → Option (Nat × Nat)
  | 0, _, _ => none
  | fuel + 1, k, idx2 =>
    if idx1 ≠ idx2 then do
      let x ← get cells arr idx1
      let y ← get cells arr idx2
      if cmp k x y ≥ 0 then countClimb cells lsbit arr idx1 fuel (k + 1) (parent cells lsbit idx2) else some (idx2, k + 1)
    else some (idx2, k)

/-- `sift` with the calls counted, src/sort.c:53-68. -/
def countSift (cells lsbit size idx1 : Nat) (k : Nat) (arr : List α) : Option (List α × Nat) := do
  let (idx2, idx3, idx4, k) ← countDescend cmp cells size arr (arr.length + 1) k idx1
  let idx2 := if idx4 = size then idx3 else idx2
  let (idx2, k) ← countClimb cmp cells lsbit arr idx1 (arr.length + 1) k idx2
  let arr ← rotate cells lsbit idx1 idx2 (arr.length + 1) idx2 arr
  return (arr, k)

/-- `mainLoop` with the calls counted, src/sort.c:45-69. -/
def countLoop (cells lsbit : Nat) : Nat → Nat → Nat → Nat → List α → Option (List α × Nat)
  | 0, _, _, _, _ => none
  | fuel + 1, k, idx1, size, arr =>
    if idx1 ≠ 0 then do
      let idx1 := wsub idx1 cells
      let (arr, k) ← countSift cmp cells lsbit size idx1 k arr
      countLoop cells lsbit fuel k idx1 size arr
    else
      let size := wsub size cells
      if size ≠ 0 then do
        let arr ← swap cells arr 0 size
        let (arr, k) ← countSift cmp cells lsbit size idx1 k arr
        countLoop cells lsbit fuel k idx1 size arr
      else some (arr, k)

/-- `bfdev_sort` with the calls of the comparison counted, src/sort.c:31-72: the array, the flag of success and the number of
calls. -/
def countSort (cells : Nat) (arr : List α) : Option (List α × Bool × Nat) :=
  let num := arr.length
  let idx1 := w64 ((num >>> 1) * cells)
  if idx1 = 0 then some (arr, false, 0)
  else do
    let size := w64 (num * cells)
    let lsbit := cells &&& wneg cells
    let (arr, k) ← countLoop cmp cells lsbit (2 * num) 0 idx1 size arr
    return (arr, true, k)

end

/-! ### The same function when the answers depend on the elements only -/

section
variable {α : Type} (cmp : α → α → Int)

theorem countDescend_plain (cells size : Nat) (arr : List α) (fuel k i : Nat) :
    (countDescend (fun _ => cmp) cells size arr fuel k i).map (fun r => (r.1, r.2.1, r.2.2.1)) = descend cmp cells size arr fuel i := by
  induction fuel generalizing k i with
  | zero => rfl
  | succ fuel ih =>
    unfold countDescend descend
    simp only
    split
    · cases get cells arr (w64 (2 * i + cells)) with
      | none => rfl
      | some x =>
        cases get cells arr (w64 (w64 (2 * i + cells) + cells)) with
        | none => rfl
        | some y => exact ih _ _
    · rfl

theorem countClimb_plain (cells lsbit : Nat) (arr : List α) (i fuel k j : Nat) :
    (countClimb (fun _ => cmp) cells lsbit arr i fuel k j).map (·.1) = climb cmp cells lsbit arr i fuel j := by
  induction fuel generalizing k j with
  | zero => rfl
  | succ fuel ih =>
    unfold countClimb climb
    split
    · cases get cells arr i with
      | none => rfl
      | some x =>
        cases get cells arr j with
        | none => rfl
        | some y =>
          simp only [bind, Option.bind]
          split
          · exact ih _ _
          · rfl
    · rfl

theorem countSift_plain (cells lsbit size i k : Nat) (arr : List α) :
    (countSift (fun _ => cmp) cells lsbit size i k arr).map (·.1) = sift cmp cells lsbit size i arr := by
  unfold countSift sift
  rw [← countDescend_plain cmp cells size arr (arr.length + 1) k i]
  cases countDescend (fun _ => cmp) cells size arr (arr.length + 1) k i with
  | none => rfl
  | some r =>
    obtain ⟨a, b, c, k1⟩ := r
    simp only [bind, Option.bind, Option.map]
    rw [← countClimb_plain cmp cells lsbit arr i (arr.length + 1) k1]
    cases countClimb (fun _ => cmp) cells lsbit arr i (arr.length + 1) k1 (if c = size then b else a) with
    | none => rfl
    | some r =>
      simp only [Option.map]
      cases rotate cells lsbit i r.1 (arr.length + 1) r.1 arr <;> rfl

theorem bind_fst {o : Option (List α × Nat)} {p : Option (List α)} (h : o.map (·.1) = p) {f : List α × Nat → Option (List α × Nat)}
    {g : List α → Option (List α)} (hf : ∀ r, (f r).map (·.1) = g r.1) : (o.bind f).map (·.1) = p.bind g := by
  subst h
  cases o with
  | none => rfl
  | some r => exact hf r

theorem bind_same {β γ δ : Type} {o : Option β} {f : β → Option γ} {g : β → Option δ} {m : γ → δ} (h : ∀ b, (f b).map m = g b) :
    (o.bind f).map m = o.bind g := by
  cases o with
  | none => rfl
  | some r => exact h r

theorem countLoop_plain (cells lsbit fuel k i size : Nat) (arr : List α) :
    (countLoop (fun _ => cmp) cells lsbit fuel k i size arr).map (·.1) = mainLoop cmp cells lsbit fuel i size arr := by
  induction fuel generalizing k i size arr with
  | zero => rfl
  | succ fuel ih =>
    rw [countLoop, mainLoop]
    dsimp only
    by_cases h : i ≠ 0
    · rw [if_pos h, if_pos h]
      exact bind_fst (countSift_plain cmp cells lsbit size _ k arr) (fun r => ih _ _ _ _)
    · rw [if_neg h, if_neg h]
      by_cases hz : wsub size cells ≠ 0
      · rw [if_pos hz, if_pos hz]
        exact bind_same (fun b => bind_fst (countSift_plain cmp cells lsbit _ i k b) (fun r => ih _ _ _ _))
      · rw [if_neg hz, if_neg hz]
        rfl

/-- Counting the calls changes nothing else. -/
theorem countSort_plain (cells : Nat) (arr : List α) :
    (countSort (fun _ => cmp) cells arr).map (fun r => (r.1, r.2.1)) = sort cmp cells arr := by
  unfold countSort sort
  simp only
  split
  · rfl
  · rw [← countLoop_plain cmp cells (cells &&& wneg cells) (2 * arr.length) 0]
    cases countLoop (fun _ => cmp) cells (cells &&& wneg cells) (2 * arr.length) 0 (w64 (arr.length >>> 1 * cells))
      (w64 (arr.length * cells)) arr <;> rfl

end

/-! ### Any answers -/

/-- `q` lies in the subtree of `r`. -/
inductive Anc (r : Nat) : Nat → Prop
  | root : Anc r r
  | left {p} : Anc r p → Anc r (2 * p + 1)
  | right {p} : Anc r p → Anc r (2 * p + 2)

theorem Anc.ge {r q : Nat} (h : Anc r q) : r ≤ q := by
  induction h with
  | root => omega
  | left _ ih => omega
  | right _ ih => omega

theorem Anc.up {r q : Nat} (h : Anc r q) (hq : q ≠ r) : Anc r ((q - 1) / 2) ∧ 0 < q := by
  cases h with
  | root => exact absurd rfl hq
  | @left p h => rw [show (2 * p + 1 - 1) / 2 = p by omega]; exact ⟨h, by omega⟩
  | @right p h => rw [show (2 * p + 2 - 1) / 2 = p by omega]; exact ⟨h, by omega⟩

theorem depth_child (p s : Nat) (h : s = 2 * p + 1 ∨ s = 2 * p + 2) : (s + 1).log2 = (p + 1).log2 + 1 := by
  rw [Nat.log2_def (s + 1), if_pos (by omega)]
  congr 2
  omega

theorem depth_parent {q : Nat} (h : 0 < q) : (q + 1).log2 = ((q - 1) / 2 + 1).log2 + 1 :=
  depth_child _ _ (by omega)

theorem log2_mono {a b : Nat} (h : a ≤ b) (ha : 0 < a) : a.log2 ≤ b.log2 := by
  have h1 := Nat.log2_self_le (n := a) (by omega)
  exact (Nat.le_log2 (by omega)).2 (by omega)

section
variable {α : Type} {cmp : Nat → α → α → Int} {c : Nat} {arr : List α} {r n : Nat}

theorem countDescend_spec (h0 : 0 < c) (hn : n ≤ arr.length) (hsz : arr.length * c < 2 ^ 63) (fuel k q : Nat)
    (hq : Anc r q) (hlt : q < n) (hf : n - q < fuel) :
    ∃ q' k', countDescend cmp c (n * c) arr fuel k (q * c) = some (q' * c, (2 * q' + 1) * c, (2 * q' + 2) * c, k') ∧
      Anc r q' ∧ q' < n ∧ n ≤ 2 * q' + 2 ∧ k' + (q + 1).log2 = k + (q' + 1).log2 := by
  induction fuel generalizing k q with
  | zero => omega
  | succ fuel ih =>
    have hnc : n * c ≤ arr.length * c := Nat.mul_le_mul_right _ hn
    have hqc : (q + 1) * c ≤ n * c := Nat.mul_le_mul_right _ hlt
    rw [Nat.add_mul, Nat.one_mul] at hqc
    have e3 : w64 (2 * (q * c) + c) = (2 * q + 1) * c := by
      rw [Nat.add_mul, Nat.one_mul, Nat.mul_assoc]
      unfold w64; rw [Nat.mod_eq_of_lt (by simp only [W64]; omega)]
    have e4 : w64 ((2 * q + 1) * c + c) = (2 * q + 2) * c := by
      rw [show (2 * q + 2) * c = (2 * q + 1) * c + c by rw [← Nat.succ_mul]]
      rw [Nat.add_mul, Nat.one_mul, Nat.mul_assoc]
      unfold w64; rw [Nat.mod_eq_of_lt (by simp only [W64]; omega)]
    unfold countDescend
    simp only [e3, e4]
    by_cases h : 2 * q + 2 < n
    · rw [if_pos ((Nat.mul_lt_mul_right h0).2 h)]
      obtain ⟨x, hx⟩ : ∃ x, get c arr ((2 * q + 1) * c) = some x := ⟨_, get_eq arr[0] h0 (by omega)⟩
      obtain ⟨y, hy⟩ : ∃ y, get c arr ((2 * q + 2) * c) = some y := ⟨_, get_eq arr[0] h0 (by omega)⟩
      simp only [hx, hy, bind, Option.bind]
      by_cases hb : cmp k x y ≥ 0
      · rw [if_pos hb]
        obtain ⟨q', k', a1, a2, a3, a4, a5⟩ := ih (k + 1) (2 * q + 1) (.left hq) (by omega) (by omega)
        rw [depth_child q (2 * q + 1) (Or.inl rfl)] at a5
        exact ⟨q', k', a1, a2, a3, a4, by omega⟩
      · rw [if_neg hb]
        obtain ⟨q', k', a1, a2, a3, a4, a5⟩ := ih (k + 1) (2 * q + 2) (.right hq) (by omega) (by omega)
        rw [depth_child q (2 * q + 2) (Or.inr rfl)] at a5
        exact ⟨q', k', a1, a2, a3, a4, by omega⟩
    · rw [if_neg (fun h' => h ((Nat.mul_lt_mul_right h0).1 h'))]
      exact ⟨q, k, rfl, hq, hlt, by omega, rfl⟩

theorem countClimb_spec (h0 : 0 < c) (hl : (c &&& wneg c) < 2 ^ 32) (hsz : arr.length * c < 2 ^ 63) (fuel k j : Nat)
    (hj : Anc r j) (hjn : j < arr.length) (hf : j < fuel) :
    ∃ j' k', countClimb cmp c (c &&& wneg c) arr (r * c) fuel k (j * c) = some (j' * c, k') ∧ Anc r j' ∧ j' ≤ j ∧
      k' + (r + 1).log2 ≤ k + (j + 1).log2 := by
  have hrl := log2_mono (a := r + 1) (b := j + 1) (by have := hj.ge; omega) (by omega)
  induction fuel generalizing k j with
  | zero => omega
  | succ fuel ih =>
    unfold countClimb
    by_cases e : r = j
    · subst e
      rw [if_neg (by simp)]
      exact ⟨r, k, rfl, .root, Nat.le_refl _, Nat.le_refl _⟩
    · obtain ⟨u1, u2⟩ := hj.up (Ne.symm e)
      have hge := u1.ge
      rw [if_pos (fun h => e (Nat.eq_of_mul_eq_mul_right h0 h))]
      obtain ⟨x, hx⟩ : ∃ x, get c arr (r * c) = some x := ⟨_, get_eq arr[0] h0 (by omega)⟩
      obtain ⟨y, hy⟩ : ∃ y, get c arr (j * c) = some y := ⟨_, get_eq arr[0] h0 hjn⟩
      simp only [hx, hy, bind, Option.bind]
      have hjc : j * c ≤ arr.length * c := Nat.mul_le_mul_right _ (by omega)
      have hpl := log2_mono (a := r + 1) (b := (j - 1) / 2 + 1) (by omega) (by omega)
      have hd := depth_parent u2
      by_cases hb : cmp k x y ≥ 0
      · rw [if_pos hb, parent_eq h0 hl u2 (by omega)]
        obtain ⟨j', k', a1, a2, a3, a4⟩ := ih (k + 1) ((j - 1) / 2) u1 (by omega) (by omega) hpl
        exact ⟨j', k', a1, a2, by omega, by omega⟩
      · rw [if_neg hb]
        exact ⟨j, k + 1, rfl, hj, Nat.le_refl _, by omega⟩

theorem rotate_any (h0 : 0 < c) (hl : (c &&& wneg c) < 2 ^ 32) {j : Nat} (fuel q : Nat) (b : List α)
    (hsz : b.length * c < 2 ^ 63) (hjn : j < b.length) (hq : Anc r q) (hqj : q ≤ j) (hf : q < fuel) :
    ∃ b', rotate c (c &&& wneg c) (r * c) (j * c) fuel (q * c) b = some b' ∧ b'.Perm b := by
  induction fuel generalizing q b with
  | zero => omega
  | succ fuel ih =>
    unfold rotate
    by_cases e : r = q
    · subst e
      rw [if_neg (by simp)]
      exact ⟨b, rfl, .refl _⟩
    · obtain ⟨u1, u2⟩ := hq.up (Ne.symm e)
      rw [if_pos (fun h => e (Nat.eq_of_mul_eq_mul_right h0 h))]
      have hqc : q * c ≤ b.length * c := Nat.mul_le_mul_right _ (by omega)
      have hp : (q - 1) / 2 < b.length := by omega
      rw [parent_eq h0 hl u2 (by omega)]
      simp only [swap_eq h0 hp hjn, bind, Option.bind]
      have hpm := swap_perm b hp hjn
      have hlen := hpm.length_eq
      obtain ⟨b', a1, a2⟩ := ih ((q - 1) / 2) _ (by rw [hlen]; exact hsz) (by rw [hlen]; exact hjn) u1 (by omega) (by omega)
      exact ⟨b', a1, a2.trans hpm⟩

theorem countSift_spec (h0 : 0 < c) (hl : (c &&& wneg c) < 2 ^ 32) (hn : n ≤ arr.length) (hsz : arr.length * c < 2 ^ 63)
    (hr : r < n) (k : Nat) :
    ∃ b k', countSift cmp c (c &&& wneg c) (n * c) (r * c) k arr = some (b, k') ∧ b.Perm arr ∧ k' ≤ k + 2 * arr.length.log2 := by
  obtain ⟨q', k1, d1, d2, d3, d4, d5⟩ := countDescend_spec (cmp := cmp) (r := r) h0 hn hsz (arr.length + 1) k r .root hr (by omega)
  have hleaf : ∃ j0, (if (2 * q' + 2) * c = n * c then (2 * q' + 1) * c else q' * c) = j0 * c ∧ Anc r j0 ∧ q' ≤ j0 ∧ j0 < n := by
    by_cases e : 2 * q' + 2 = n
    · rw [if_pos (by rw [e])]
      exact ⟨2 * q' + 1, rfl, .left d2, by omega, by omega⟩
    · rw [if_neg (fun h => e (Nat.eq_of_mul_eq_mul_right h0 h))]
      exact ⟨q', rfl, d2, Nat.le_refl _, d3⟩
  obtain ⟨j0, l1, l2, l3, l4⟩ := hleaf
  obtain ⟨j, k2, c1, c2, c3, c4⟩ := countClimb_spec (cmp := cmp) h0 hl hsz (arr.length + 1) k1 j0 l2 (by omega) (by omega)
  obtain ⟨b, r1, r2⟩ := rotate_any h0 hl (j := j) (arr.length + 1) j arr hsz (by omega) c2 (Nat.le_refl _) (by omega)
  refine ⟨b, k2, ?_, r2, ?_⟩
  · unfold countSift
    simp only [d1, bind, Option.bind, l1, c1, r1]
    rfl
  · have h1 := log2_mono (a := q' + 1) (b := arr.length) (by omega) (by omega)
    have h2 := log2_mono (a := j0 + 1) (b := arr.length) (by omega) (by omega)
    omega

theorem countLoop_spec (h0 : 0 < c) (hl : (c &&& wneg c) < 2 ^ 32) (fuel k i n : Nat) (arr : List α)
    (hsz : arr.length * c < 2 ^ 63) (hn : n ≤ arr.length) (hn0 : 0 < n) (hi : i ≤ n) (hf : i + n ≤ fuel) :
    ∃ b k', countLoop cmp c (c &&& wneg c) fuel k (i * c) (n * c) arr = some (b, k') ∧ b.Perm arr ∧
      k' ≤ k + (i + (n - 1)) * (2 * arr.length.log2) := by
  induction fuel generalizing k i n arr with
  | zero => omega
  | succ fuel ih =>
    have hnc : n * c ≤ arr.length * c := Nat.mul_le_mul_right _ hn
    unfold countLoop
    by_cases hi0 : i = 0
    · subst hi0
      have e1 : wsub (n * c) c = (n - 1) * c := by
        rw [wsub_eq (Nat.le_mul_of_pos_left _ hn0) (by simp only [W64]; omega), Nat.sub_mul, Nat.one_mul]
      rw [if_neg (by simp)]
      simp only [e1]
      by_cases h : n = 1
      · subst h
        rw [if_neg (by simp)]
        exact ⟨arr, k, rfl, .refl _, by omega⟩
      · rw [if_pos (Nat.ne_of_gt (Nat.mul_pos (by omega) h0))]
        have hi' : 0 < arr.length := by omega
        have hj' : n - 1 < arr.length := by omega
        have hsw := swap_eq (arr := arr) h0 hi' hj'
        rw [Nat.zero_mul] at hsw ⊢
        simp only [hsw, bind, Option.bind]
        have hpm := swap_perm arr hi' hj'
        have hlen := hpm.length_eq
        obtain ⟨b, k1, a1, a2, a3⟩ := countSift_spec (cmp := cmp) (arr := (arr.set 0 arr[n - 1]).set (n - 1) arr[0]) (n := n - 1) (r := 0)
          h0 hl (by rw [hlen]; omega) (by rw [hlen]; exact hsz) (by omega) k
        rw [Nat.zero_mul] at a1
        rw [a1]
        have hlb := a2.length_eq
        obtain ⟨b', k2, b1, b2, b3⟩ := ih k1 0 (n - 1) b (by rw [hlb, hlen]; exact hsz) (by rw [hlb, hlen]; omega) (by omega)
          (by omega) (by omega)
        rw [Nat.zero_mul] at b1
        refine ⟨b', k2, b1, b2.trans (a2.trans hpm), ?_⟩
        rw [hlb, hlen] at b3
        rw [hlen] at a3
        have e2 : n - 1 = (n - 1 - 1) + 1 := by omega
        rw [Nat.zero_add] at b3 ⊢
        rw [e2, Nat.succ_mul]
        omega
    · have hic : i * c ≤ n * c := Nat.mul_le_mul_right _ hi
      have e1 : wsub (i * c) c = (i - 1) * c := by
        rw [wsub_eq (Nat.le_mul_of_pos_left _ (by omega)) (by simp only [W64]; omega), Nat.sub_mul, Nat.one_mul]
      rw [if_pos (Nat.ne_of_gt (Nat.mul_pos (by omega) h0))]
      simp only [e1]
      obtain ⟨b, k1, a1, a2, a3⟩ := countSift_spec (cmp := cmp) (arr := arr) (n := n) (r := i - 1) h0 hl hn hsz (by omega) k
      simp only [a1, bind, Option.bind]
      have hlb := a2.length_eq
      obtain ⟨b', k2, b1, b2, b3⟩ := ih k1 (i - 1) n b (by rw [hlb]; exact hsz) (by rw [hlb]; omega) hn0 (by omega) (by omega)
      refine ⟨b', k2, b1, b2.trans a2, ?_⟩
      rw [hlb] at b3
      have e2 : i + (n - 1) = (i - 1 + (n - 1)) + 1 := by omega
      rw [e2, Nat.succ_mul]
      omega

end

/-- **C107**, the array sort: whatever the comparison answers, call by call, the sort ends, touches only elements of the array,
leaves a permutation of it, and calls the comparison at most `3 · n · log2 n` times.
Missing from the full property: element sizes that are a multiple of `2^32` bytes, see `sort_violated`. -/
theorem any_answers_partial {α : Type} (cmp : Nat → α → α → Int) (cells : Nat) (arr : List α) (hc : 0 < cells)
    (hsz : arr.length * cells < 2 ^ 63) (hl : cells % 2 ^ 32 ≠ 0) :
    ∃ out ok calls, countSort cmp cells arr = some (out, ok, calls) ∧ out.Perm arr ∧ (ok = true ↔ 2 ≤ arr.length) ∧
      (ok = false → out = arr ∧ calls = 0) ∧ calls ≤ 3 * arr.length * arr.length.log2 := by
  unfold countSort
  have hdiv : arr.length >>> 1 = arr.length / 2 := by rw [Nat.shiftRight_eq_div_pow, Nat.pow_one]
  have hle : arr.length / 2 * cells ≤ arr.length * cells := Nat.mul_le_mul_right _ (by omega)
  have hw : w64 (arr.length >>> 1 * cells) = arr.length / 2 * cells := by
    rw [hdiv]; unfold w64; rw [Nat.mod_eq_of_lt (by simp only [W64]; omega)]
  have hw2 : w64 (arr.length * cells) = arr.length * cells := by
    unfold w64; rw [Nat.mod_eq_of_lt (by simp only [W64]; omega)]
  simp only [hw, hw2]
  by_cases h2 : 2 ≤ arr.length
  · have hpos : 0 < arr.length / 2 * cells := Nat.mul_pos (by omega) hc
    rw [if_neg (by omega)]
    have hcw : cells < W64 := by
      have : 1 * cells ≤ arr.length * cells := Nat.mul_le_mul_right _ (by omega)
      simp only [W64]; omega
    obtain ⟨b, k, a1, a2, a3⟩ := countLoop_spec (cmp := cmp) hc (lsbit_small hc hcw hl) (2 * arr.length) 0 (arr.length / 2) arr.length arr
      hsz (Nat.le_refl _) (by omega) (by omega) (by omega)
    rw [a1]
    refine ⟨b, true, k, rfl, a2, by simpa using h2, by simp, ?_⟩
    have h3 : (arr.length / 2 + (arr.length - 1)) * (2 * arr.length.log2) ≤ 3 * arr.length * arr.length.log2 := by
      rw [← Nat.mul_assoc]
      exact Nat.mul_le_mul_right _ (by omega)
    omega
  · have : arr.length / 2 * cells = 0 := by rw [show arr.length / 2 = 0 by omega, Nat.zero_mul]
    rw [if_pos this]
    exact ⟨arr, false, 0, rfl, .refl _, by simp; omega, fun _ => ⟨rfl, rfl⟩, Nat.zero_le _⟩

/-- A comparison that always says "greater", and one that contradicts itself at every other call. -/
example : countSort (fun _ (_ _ : Nat) => 1) 8 [1, 2, 3, 4, 5] = some ([2, 3, 4, 5, 1], true, 12) ∧
    countSort (fun k (_ _ : Nat) => if k % 2 = 0 then 1 else -1) 8 [1, 2, 3, 4, 5] = some ([5, 3, 2, 1, 4], true, 11) := by
  decide +kernel

end Bfdev.Sort

import Verif.Radix.Props
import Verif.Dlist.Iter
/-!
C104: the iteration macros of `include/bfdev/radix.h`, with and without removal.
-/
namespace Bfdev.Radix
open Dlist (Start order Splits)

/-- `bfdev_radix_first` and `bfdev_radix_last`, radix.h:155-173: the pointer and the index, `none` inside for NULL (the index is then an unset variable; no
macro uses it). `cells` is the size of an element. -/
def begin_ (back : Bool) (cells : Nat) (r : Root) : Option (Option (Ptr × Nat)) :=
  (if back then last r else first r).map fun v => v.map fun t => (t.1, radixIndex t.2 cells)

/-- `bfdev_radix_next` and `bfdev_radix_prev`, radix.h:175-195. -/
def step (back : Bool) (cells : Nat) (r : Root) (index : Nat) : Option (Option (Ptr × Nat)) :=
  (if back then prev r (radixOffset index cells) else next r (radixOffset index cells)).map fun v => v.map fun t => (t.1, radixIndex t.2 cells)

/-- What `bfdev_radix_find`, radix.h:109-117, gives a loop to start from. -/
def at_ (cells : Nat) (r : Root) (index : Nat) : Option (Option (Ptr × Nat)) := (find r (radixOffset index cells)).map fun v => v.map fun p => (p, index)

/-- The loop of the plain macros, collecting indices and values. -/
def loop (back : Bool) (cells : Nat) (r : Root) : Nat → Option (Ptr × Nat) → Option (List (Nat × Ptr))
  | 0, _ => none
  | _ + 1, none => some []
  | fuel + 1, some (p, i) => (step back cells r i).bind fun v => (loop back cells r fuel v).map ((i, p) :: ·)

/-- `bfdev_radix_for_each`, `_reverse`, `_form`, `_reverse_form`, `_continue`, `_reverse_continue`, radix.h:197-219. -/
def iter (back : Bool) (cells : Nat) (fuel : Nat) (r : Root) : Start → Option (List (Nat × Ptr))
  | .all => (begin_ back cells r).bind (loop back cells r fuel)
  | .from i => (at_ cells r i).bind (loop back cells r fuel)
  | .after i => (step back cells r i).bind (loop back cells r fuel)

/-- The element after a cursor, if the cursor is on an element. -/
def ahead (back : Bool) (cells : Nat) (r : Root) : Option (Ptr × Nat) → Option (Option (Ptr × Nat))
  | none => some none
  | some (_, i) => step back cells r i

/-- The loop of the `_safe` macros: `*index = *tidx, value = tval`, and if there is a value, `tval` is the element after it. -/
def safeLoop (back : Bool) (cells : Nat) (body : Root → Nat → Option Root) : Nat → Root → Option (Ptr × Nat) → Option (Ptr × Nat) → Option (List (Nat × Ptr) × Root)
  | 0, _, _, _ => none
  | _ + 1, r, none, _ => some ([], r)
  | fuel + 1, r, some (p, i), tv =>
    (body r i).bind fun r => (ahead back cells r tv).bind fun tv' => (safeLoop back cells body fuel r tv tv').map fun t => ((i, p) :: t.1, t.2)

/-- `bfdev_radix_for_each_safe`, `_reverse_safe`, `_form_safe`, `_reverse_form_safe`, `_continue_safe`, `_reverse_continue_safe`, radix.h:216-246. The macros
that do not start at an end find in `tidx` and `tval` the element after `index`, where an earlier loop left it. `_continue_safe` does not compile (`a && b = c` in its last clause, line
240); it is modelled as its reverse is written. -/
def iterSafe (back : Bool) (cells : Nat) (body : Root → Nat → Option Root) (fuel : Nat) (r : Root) (start : Start) : Option (List (Nat × Ptr) × Root) :=
  (match start with
    | .all => begin_ back cells r
    | .from i => at_ cells r i
    | .after i => step back cells r i).bind fun v => (ahead back cells r v).bind fun tv => safeLoop back cells body fuel r v tv

/-- A body that frees, with `bfdev_radix_free`, the elements it does not keep. -/
def purge (cells : Nat) (keep : Nat → Bool) (r : Root) (i : Nat) : Option Root := if keep i then some r else (free r (radixOffset i cells)).map (·.1)

/-! ## Specification -/

/-- The elements are those with the indices `l`, in ascending order. -/
structure Elems (cells : Nat) (M : Sparse) (l : List Nat) : Prop where
  sorted : l.Pairwise (· < ·)
  iff : ∀ o, M o ≠ none ↔ ∃ i ∈ l, o = i * cells

/-- The index and the pointer of an element. -/
def item (cells : Nat) (M : Sparse) (i : Nat) : Nat × Ptr := (i, (M (i * cells)).getD (0, 0))

/-- The element an iteration starts after, and those it meets. -/
def trail : Start → List Nat → List Nat
  | .after i, q => i :: q
  | _, q => q

/-- What the steps of the code are right for: the elements of the trail are in the same 8192 bytes; the first element is below 256 if the loop starts there,
and the lowest is if the loop goes down. -/
structure Near (back : Bool) (cells : Nat) (start : Start) (q : List Nat) : Prop where
  window : ∀ i ∈ trail start q, ∀ j ∈ trail start q, i * cells / 8192 = j * cells / 8192
  low : back = true → ∀ i, (trail start q).getLast? = some i → i * cells < 256
  head : back = false → start = .all → ∀ i, q.head? = some i → i * cells < 256

/-! ## Proofs -/

section
variable {mem : Nat → Bool} {cells : Nat} {r : Root} {M : Sparse} {l : List Nat}

theorem pos_cells (hc : pow2Check cells = true) : 0 < cells := by
  refine Nat.pos_of_ne_zero ?_
  rintro rfl
  cases hc

theorem fits (h : Run mem r M) {o : Nat} (ho : M o ≠ none) : o < 2 ^ 64 := by
  obtain ⟨l, n, nx, fr, rfl, hlt, hl, -⟩ := h.inv.inside ho
  exact Nat.lt_of_lt_of_le hlt (Nat.pow_le_pow_right (by decide) (by unfold shift; omega))

theorem Elems.has (he : Elems cells M l) {i : Nat} (hi : i ∈ l) : M (i * cells) ≠ none := (he.iff _).2 ⟨i, hi, rfl⟩

theorem Elems.item (he : Elems cells M l) {i : Nat} (hi : i ∈ l) : M (i * cells) = some (Radix.item cells M i).2 := by
  have := he.has hi
  cases e : M (i * cells) with
  | none => exact absurd e this
  | some p => simp [Radix.item, e]

theorem offset_eq (hc : pow2Check cells = true) (h : Run mem r M) {i : Nat} (hi : M (i * cells) ≠ none) : radixOffset i cells = i * cells := by
  unfold radixOffset
  rw [if_pos hc, Nat.mod_eq_of_lt (fits h hi)]

theorem index_eq (hc : pow2Check cells = true) (i : Nat) : radixIndex (i * cells) cells = i := by
  unfold radixIndex
  rw [if_pos hc, Nat.mul_div_cancel _ (pos_cells hc)]

/-- One step of a loop. -/
theorem step_ok (hm : ∀ k, mem k = true) (hc : pow2Check cells = true) (h : Run mem r M) (he : Elems cells M l) {back : Bool} {p q : List Nat} {i : Nat}
    (e : order back l = p ++ i :: q) (hw : ∀ j, q.head? = some j → i * cells / 8192 = j * cells / 8192) (hlow : back = true → q = [] → i * cells < 256) :
    step back cells r i = some (q.head?.map fun j => ((item cells M j).2, j)) := by
  have hp := pos_cells hc
  have hi : i ∈ l := (Dlist.order_mem back l i).1 (by rw [e]; simp)
  have ho := he.has hi
  unfold step
  rw [offset_eq hc h ho]
  have hlt : ∀ {a b : Nat}, a * cells < b * cells → a < b := fun {a b} h => Nat.lt_of_mul_lt_mul_right h
  have hmul : ∀ {a b : Nat}, a < b → a * cells < b * cells := fun {a b} h => Nat.mul_lt_mul_of_pos_right h hp
  cases back with
  | false =>
    have e : l = p ++ i :: q := e
    have hs := he.sorted
    rw [e, List.pairwise_append, List.pairwise_cons] at hs
    obtain ⟨-, ⟨hs1, hs2⟩, hs3⟩ := hs
    obtain ⟨n1, n2⟩ := next_partial hm h ho
    simp only [Bool.false_eq_true, if_false]
    cases q with
    | nil =>
      rw [n1]
      · rfl
      · intro x hx
        refine Classical.byContradiction fun hn => ?_
        obtain ⟨j, hj, rfl⟩ := (he.iff x).1 hn
        have := hlt hx
        rw [e] at hj
        rcases List.mem_append.1 hj with hj | hj
        · have := hs3 j hj i (by simp); omega
        · simp at hj; omega
    | cons j q =>
      have hj : j ∈ l := by rw [e]; simp
      have hij := hs1 j (by simp)
      have hnx : IsNext M (i * cells) (j * cells) := by
        refine ⟨hmul hij, he.has hj, fun x x1 x2 => ?_⟩
        refine Classical.byContradiction fun hn => ?_
        obtain ⟨k, hk, rfl⟩ := (he.iff x).1 hn
        have y1 := hlt x1
        have y2 := hlt x2
        rw [e] at hk
        rcases List.mem_append.1 hk with hk | hk
        · have := hs3 k hk i (by simp); omega
        · rcases List.mem_cons.1 hk with rfl | hk
          · omega
          · rcases List.mem_cons.1 hk with rfl | hk
            · omega
            · have := (List.pairwise_cons.1 hs2).1 k hk; omega
      obtain ⟨st, k1, k2⟩ := n2 (j * cells) (item cells M j).2 hnx (he.item hj)
      rw [k1, k2 (hw j rfl).symm]
      simp [index_eq hc]
  | true =>
    have e : l.reverse = p ++ i :: q := e
    have hs : l.reverse.Pairwise (· > ·) := List.pairwise_reverse.2 he.sorted
    rw [e, List.pairwise_append, List.pairwise_cons] at hs
    obtain ⟨-, ⟨hs1, hs2⟩, hs3⟩ := hs
    obtain ⟨n1, n2⟩ := prev_partial hm h ho
    simp only [if_true]
    have hml : ∀ k, k ∈ l → k ∈ p ++ i :: q := fun k hk => by rw [← e]; exact List.mem_reverse.2 hk
    cases q with
    | nil =>
      rw [n1 _ (hlow rfl rfl)]
      · rfl
      · intro x hx
        refine Classical.byContradiction fun hn => ?_
        obtain ⟨j, hj, rfl⟩ := (he.iff x).1 hn
        have := hlt hx
        rcases List.mem_append.1 (hml j hj) with hj | hj
        · have := hs3 j hj i (by simp); omega
        · simp at hj; omega
    | cons j q =>
      have hj : j ∈ l := List.mem_reverse.1 (by rw [e]; simp)
      have hij := hs1 j (by simp)
      have hnx : IsPrev M (i * cells) (j * cells) := by
        refine ⟨hmul hij, he.has hj, fun x x1 x2 => ?_⟩
        refine Classical.byContradiction fun hn => ?_
        obtain ⟨k, hk, rfl⟩ := (he.iff x).1 hn
        have y1 := hlt x1
        have y2 := hlt x2
        rcases List.mem_append.1 (hml k hk) with hk | hk
        · have := hs3 k hk i (by simp); omega
        · rcases List.mem_cons.1 hk with rfl | hk
          · omega
          · rcases List.mem_cons.1 hk with rfl | hk
            · omega
            · have := (List.pairwise_cons.1 hs2).1 k hk; omega
      obtain ⟨st, k1, k2⟩ := n2 (j * cells) (item cells M j).2 hnx (he.item hj)
      rw [k1, k2 (hw j rfl).symm]
      simp [index_eq hc]

theorem begin_ok (hm : ∀ k, mem k = true) (hc : pow2Check cells = true) (h : Run mem r M) (he : Elems cells M l) {back : Bool}
    (hhead : back = false → ∀ i, (order back l).head? = some i → i * cells < 256) :
    begin_ back cells r = some ((order back l).head?.map fun j => ((item cells M j).2, j)) := by
  have hlt : ∀ {a b : Nat}, a * cells < b * cells → a < b := fun {a b} h => Nat.lt_of_mul_lt_mul_right h
  unfold begin_
  have hnil : l = [] → ∀ o, M o = none := fun e o => Classical.byContradiction fun hn => by
    obtain ⟨i, hi, -⟩ := (he.iff o).1 hn
    rw [e] at hi
    cases hi
  cases back with
  | false =>
    obtain ⟨f1, f2⟩ := first_partial hm h
    simp only [Bool.false_eq_true, if_false, order] at hhead ⊢
    cases l with
    | nil => rw [f1 (hnil rfl)]; rfl
    | cons j l =>
      rw [f2 (j * cells) (item cells M j).2 (he.item (by simp)) (hhead trivial j rfl)]
      · simp [index_eq hc]
      · intro x hx
        refine Classical.byContradiction fun hn => ?_
        obtain ⟨k, hk, rfl⟩ := (he.iff x).1 hn
        have := hlt hx
        rcases List.mem_cons.1 hk with rfl | hk
        · omega
        · have := (List.pairwise_cons.1 he.sorted).1 k hk; omega
  | true =>
    obtain ⟨f1, f2⟩ := last_partial hm h
    simp only [if_true, order]
    cases hr : l.reverse with
    | nil =>
      rw [f1 (hnil (by simpa using hr))]; rfl
    | cons j t =>
      have hj : j ∈ l := List.mem_reverse.1 (by rw [hr]; simp)
      have hs : l.reverse.Pairwise (· > ·) := List.pairwise_reverse.2 he.sorted
      rw [hr, List.pairwise_cons] at hs
      rw [f2 (j * cells) (item cells M j).2 (he.item hj)]
      · simp [index_eq hc]
      · intro x hx
        refine Classical.byContradiction fun hn => ?_
        obtain ⟨k, hk, rfl⟩ := (he.iff x).1 hn
        have := hlt hx
        have hk : k ∈ l.reverse := List.mem_reverse.2 hk
        rw [hr] at hk
        rcases List.mem_cons.1 hk with rfl | hk
        · omega
        · have := hs.1 k hk; omega

/-- The guard of the rest of a walk. -/
structure Rest (back : Bool) (cells : Nat) (q : List Nat) : Prop where
  window : ∀ i ∈ q, ∀ j ∈ q, i * cells / 8192 = j * cells / 8192
  low : back = true → ∀ i, q.getLast? = some i → i * cells < 256

theorem Rest.tail {back : Bool} {i : Nat} {q : List Nat} (h : Rest back cells (i :: q)) : Rest back cells q :=
  ⟨fun a ha b hb => h.window a (by simp [ha]) b (by simp [hb]), fun hb a ha => h.low hb a (by
    cases q with
    | nil => cases ha
    | cons b q => rw [List.getLast?_cons_cons]; exact ha)⟩

theorem Rest.step {back : Bool} {i : Nat} {q : List Nat} (h : Rest back cells (i :: q)) :
    (∀ j, q.head? = some j → i * cells / 8192 = j * cells / 8192) ∧ (back = true → q = [] → i * cells < 256) := by
  refine ⟨fun j hj => h.window i (by simp) j (by simp [List.mem_of_mem_head? hj]), fun hb hq => h.low hb i (by rw [hq]; rfl)⟩

theorem loop_ok (hm : ∀ k, mem k = true) (hc : pow2Check cells = true) (h : Run mem r M) (he : Elems cells M l) {back : Bool} :
    ∀ (q p : List Nat) (fuel : Nat), order back l = p ++ q → Rest back cells q → q.length < fuel →
      loop back cells r fuel (q.head?.map fun j => ((item cells M j).2, j)) = some (q.map (item cells M))
  | [], p, fuel + 1, _, _, _ => rfl
  | i :: q, p, fuel + 1, e, hr, hf => by
    have hs := step_ok hm hc h he e hr.step.1 hr.step.2
    have := loop_ok hm hc h he q (p ++ [i]) fuel (by simpa using e) hr.tail (by simpa using hf)
    simp only [List.head?_cons, Option.map_some, loop, hs, Option.bind_some, this, List.map_cons]
    rfl

theorem item_same {M' : Sparse} {i : Nat} (e : M' (i * cells) = M (i * cells)) : item cells M' i = item cells M i := by unfold item; rw [e]

/-- The body of a removal-safe loop. -/
theorem purge_ok (hc : pow2Check cells = true) (h : Run mem r M) (he : Elems cells M l) {back : Bool} {p q : List Nat} {i : Nat}
    (e : order back l = p ++ i :: q) (keep : Nat → Bool) :
    ∃ r' M', purge cells keep r i = some r' ∧ Run mem r' M' ∧ Elems cells M' (order back ((p ++ if keep i then [i] else []) ++ q)) ∧
      ∀ o, M' o = if keep i = false ∧ o = i * cells then none else M o := by
  have hp := pos_cells hc
  have hi : i ∈ l := (Dlist.order_mem back l i).1 (by rw [e]; simp)
  have ho := he.has hi
  have el : l = order back (p ++ i :: q) := by rw [← e, Dlist.order_order]
  unfold purge
  cases hk : keep i with
  | true =>
    refine ⟨r, M, rfl, h, ?_, fun o => by simp⟩
    simp only [if_true, List.append_assoc, List.cons_append, List.nil_append]
    rw [← el]; exact he
  | false =>
    obtain ⟨r', hf⟩ := free_present h ho
    rw [offset_eq hc h ho, hf]
    refine ⟨r', set M (i * cells) none, by simp, Run.free h (h.inv.clear ho) hf, ?_, fun o => by simp [set]⟩
    obtain ⟨A, B, e1, e2⟩ := Dlist.order_middle back p i q
    simp only [Bool.false_eq_true, if_false, List.append_nil]
    rw [e2]
    rw [e1] at el
    have hs := he.sorted
    have hn : l.Nodup := hs.imp (fun h => Nat.ne_of_lt h)
    rw [el] at hs hn
    refine ⟨hs.sublist (List.Sublist.append_left (List.sublist_cons_self _ _) _), fun o => ?_⟩
    by_cases hoi : o = i * cells
    · subst hoi
      rw [set_same]
      refine ⟨fun h => absurd rfl h, ?_⟩
      rintro ⟨j, hj, ej⟩
      have : j = i := (Nat.mul_right_cancel hp ej).symm
      subst this
      grind
    · rw [set_other _ _ hoi, he.iff, el]
      refine ⟨?_, ?_⟩
      · rintro ⟨j, hj, rfl⟩
        refine ⟨j, ?_, rfl⟩
        have : j ≠ i := fun e => hoi (by rw [e])
        grind
      · rintro ⟨j, hj, rfl⟩
        exact ⟨j, by grind, rfl⟩

theorem safeLoop_ok (hm : ∀ k, mem k = true) (hc : pow2Check cells = true) {back : Bool} (keep : Nat → Bool) :
    ∀ (q p : List Nat) (r : Root) (M : Sparse) (fuel : Nat) (tv : Option (Ptr × Nat)), Run mem r M → Elems cells M (order back (p ++ q)) → Rest back cells q →
      q.length < fuel → tv = q.tail.head?.map (fun j => ((item cells M j).2, j)) →
      ∃ r' M', safeLoop back cells (purge cells keep) fuel r (q.head?.map fun j => ((item cells M j).2, j)) tv = some (q.map (item cells M), r') ∧ Run mem r' M' ∧
        ∀ o, M' o = if ∃ i ∈ q, keep i = false ∧ o = i * cells then none else M o
  | [], p, r, M, fuel + 1, tv, h, he, hr, hf, ht => ⟨r, M, rfl, h, fun o => by simp⟩
  | i :: q, p, r, M, fuel + 1, tv, h, he, hr, hf, ht => by
    have e : order back (order back (p ++ i :: q)) = p ++ i :: q := Dlist.order_order _ _
    have hp := pos_cells hc
    have hn : (i :: q).Nodup := by
      have hs : (order back (p ++ i :: q)).Nodup := he.sorted.imp (fun h => Nat.ne_of_lt h)
      have : (p ++ i :: q).Nodup := by
        cases back
        · exact hs
        · exact (List.reverse_perm _).nodup_iff.1 hs
      exact (List.nodup_append.1 this).2.1
    obtain ⟨r1, M1, e1, h1, he1, hM1⟩ := purge_ok hc h he e keep
    have hsame : ∀ j ∈ q, item cells M1 j = item cells M j := fun j hj => item_same (by
      rw [hM1, if_neg]
      rintro ⟨-, ej⟩
      have : j = i := Nat.mul_right_cancel hp ej
      subst this
      exact (List.nodup_cons.1 hn).1 hj)
    have ht : tv = q.head?.map (fun j => ((item cells M j).2, j)) := ht
    have ht1 : tv = q.head?.map (fun j => ((item cells M1 j).2, j)) := by
      rw [ht]
      cases q with
      | nil => rfl
      | cons j q => simp [hsame j (by simp)]
    have hah : ahead back cells r1 tv = some (q.tail.head?.map fun j => ((item cells M1 j).2, j)) := by
      rw [ht1]
      cases q with
      | nil => rfl
      | cons j q =>
        simp only [List.head?_cons, Option.map_some, ahead, List.tail_cons]
        exact step_ok hm hc h1 he1 (back := back) (p := p ++ if keep i then [i] else []) (by rw [Dlist.order_order]) hr.tail.step.1 hr.tail.step.2
    obtain ⟨r2, M2, e2, h2, hM2⟩ := safeLoop_ok hm hc keep q (p ++ if keep i then [i] else []) r1 M1 fuel _ h1 he1 hr.tail (by simpa using hf) rfl
    refine ⟨r2, M2, ?_, h2, fun o => ?_⟩
    · simp only [List.head?_cons, Option.map_some, safeLoop, e1, Option.bind_some, hah]
      rw [ht1, e2, List.map_cons, List.map_congr_left hsame]
      rfl
    · rw [hM2, hM1]
      by_cases a : ∃ j ∈ q, keep j = false ∧ o = j * cells
      · obtain ⟨j, j1, j2⟩ := a
        rw [if_pos ⟨j, j1, j2⟩, if_pos ⟨j, by simp [j1], j2⟩]
      · rw [if_neg a]
        by_cases b : keep i = false ∧ o = i * cells
        · rw [if_pos b, if_pos ⟨i, by simp, b⟩]
        · rw [if_neg b, if_neg]
          rintro ⟨j, hj, j2⟩
          rcases List.mem_cons.1 hj with rfl | hj
          · exact b j2
          · exact a ⟨j, hj, j2⟩

end

/-- C104 where the single steps are right: memory was never refused, the size of an element is a power of two, and the elements of the walk are `Near`. Every
plain macro meets exactly the elements on its way, each once, in order, with its index and its pointer. The removal-safe ones do so whatever elements the body
frees, and leave a tree that went through a legal history, holding exactly the other elements. What is missing: walks over more than 8192 bytes, see
`walk_violated`, from a first block that is empty, see `start_violated`, or down to a lowest element above 255, see `prev_violated`; other sizes, see
`index_violated`; histories in which memory was refused, see `refused_violated`. -/
theorem radix_iteration_partial {mem : Nat → Bool} (hm : ∀ k, mem k = true) {cells : Nat} (hc : pow2Check cells = true) {r : Root} {M : Sparse} (h : Run mem r M)
    {l : List Nat} (he : Elems cells M l) {back : Bool} {start : Start} {p q : List Nat} (hs : Splits (order back l) start p q) (hn : Near back cells start q)
    (fuel : Nat) (hf : l.length < fuel) (keep : Nat → Bool) :
    iter back cells fuel r start = some (q.map (item cells M)) ∧ ∃ r' M', iterSafe back cells (purge cells keep) fuel r start = some (q.map (item cells M), r') ∧
      Run mem r' M' ∧ ∀ o, M' o = if ∃ i ∈ q, keep i = false ∧ o = i * cells then none else M o := by
  have hpq := Dlist.splits_append hs
  have hlen := Dlist.order_length back l
  have hq : q.length < fuel := by rw [← hpq, List.length_append] at hlen; omega
  have he' : Elems cells M (order back (p ++ q)) := by rw [hpq, Dlist.order_order]; exact he
  have hrest : Rest back cells q := by
    refine ⟨fun a ha b hb => hn.window a ?_ b ?_, fun hb a ha => hn.low hb a ?_⟩
    · cases start <;> simp [trail, ha]
    · cases start <;> simp [trail, hb]
    · cases start with
      | all => exact ha
      | «from» x => exact ha
      | after x =>
        cases q with
        | nil => cases ha
        | cons b q => rw [trail, List.getLast?_cons_cons]; exact ha
  have key : ∀ v : Option (Option (Ptr × Nat)), v = some (q.head?.map fun j => ((item cells M j).2, j)) →
      v.bind (loop back cells r fuel) = some (q.map (item cells M)) ∧
      ∃ r' M', (v.bind fun v => (ahead back cells r v).bind fun tv => safeLoop back cells (purge cells keep) fuel r v tv) = some (q.map (item cells M), r') ∧
        Run mem r' M' ∧ ∀ o, M' o = if ∃ i ∈ q, keep i = false ∧ o = i * cells then none else M o := by
    rintro v rfl
    refine ⟨loop_ok hm hc h he q p fuel hpq.symm hrest hq, ?_⟩
    have hah : ahead back cells r (q.head?.map fun j => ((item cells M j).2, j)) = some (q.tail.head?.map fun j => ((item cells M j).2, j)) := by
      cases q with
      | nil => rfl
      | cons j q => exact step_ok hm hc h he hpq.symm hrest.step.1 hrest.step.2
    obtain ⟨r', M', e, e'⟩ := safeLoop_ok hm hc keep q p r M fuel _ h he' hrest hq rfl
    exact ⟨r', M', by rw [Option.bind_some, hah, Option.bind_some]; exact e, e'⟩
  generalize hys : order back l = ys at hs hpq
  cases hs with
  | all =>
    have hb := begin_ok hm hc h he (back := back) (by rw [hys]; exact fun hb i hi => hn.head hb rfl i hi)
    rw [hys] at hb
    exact key _ hb
  | @«from» p x q =>
    have hx : x ∈ l := (Dlist.order_mem back l x).1 (by rw [hys]; simp)
    refine key (at_ cells r x) ?_
    unfold at_
    rw [offset_eq hc h (he.has hx), find_present h (he.item hx)]
    rfl
  | @after p x q =>
    refine key (step back cells r x) (step_ok hm hc h he hys (fun j hj => hn.window x (by simp [trail]) j (by simp [trail, List.mem_of_mem_head? hj])) fun hb hq => ?_)
    subst hq
    exact hn.low hb x rfl

/-- C104 fails beyond 8192 bytes: the step to element 8192 gives its pointer with the index 16128, and element 8448 is missed. -/
theorem walk_violated : ∃ r M p q, Run (fun _ => true) r M ∧ M 8192 = some p ∧ M 8448 = some q ∧
    ∃ its, iter false 1 9 r .all = some its ∧ (16128, p) ∈ its ∧ ∀ i, (i, q) ∉ its := by
  obtain ⟨r, M, h, hp⟩ := exec_ex (mem := fun _ => true) [.alloc 8448, .alloc 8192, .alloc 7936, .alloc 0]
    (fun r M => (M 8192).any fun p => (M 8448).any fun q => (iter false 1 9 r .all).any fun its => decide ((16128, p) ∈ its) && decide (q ∉ (List.map Prod.snd its : List Ptr)))
    (by decide +kernel)
  obtain ⟨p, hp1, hp⟩ := (Option.any_eq_true _ _).1 hp
  obtain ⟨q, hq1, hp⟩ := (Option.any_eq_true _ _).1 hp
  obtain ⟨its, hi, hp⟩ := (Option.any_eq_true _ _).1 hp
  rw [Bool.and_eq_true] at hp
  exact ⟨r, M, p, q, h, hp1, hq1, its, hi, of_decide_eq_true hp.1, fun i hi => of_decide_eq_true hp.2 (List.mem_map.2 ⟨_, hi, rfl⟩)⟩

/-- C104 fails when the first block is empty: element 256 is missed. -/
theorem start_violated : ∃ r M, Run (fun _ => true) r M ∧ M 256 ≠ none ∧ iter false 1 9 r .all = some [] := by
  obtain ⟨r, M, h, hp⟩ := exec_ex (mem := fun _ => true) [.alloc 256]
    (fun r M => decide (M 256 ≠ none) && decide (iter false 1 9 r .all = some [])) (by decide +kernel)
  rw [Bool.and_eq_true] at hp
  exact ⟨r, M, h, of_decide_eq_true hp.1, of_decide_eq_true hp.2⟩

/-- Elements of 8 bytes in four blocks, walked both ways, freeing the odd ones from the second on. -/
example : ∃ r M, Run (fun _ => true) r M ∧ (iter false 8 9 r .all).map (·.map (·.1)) = some [3, 4, 40, 41, 100] ∧
    (iter true 8 9 r (.after 41)).map (·.map (·.1)) = some [40, 4, 3] ∧
    ((iterSafe false 8 (purge 8 fun i => i % 2 == 0) 9 r (.from 4)).bind fun t => (iter true 8 9 t.2 .all).map fun u => (t.1.map (·.1), u.map (·.1))) =
      some ([4, 40, 41, 100], [100, 40, 4, 3]) := by
  obtain ⟨r, M, h, hp⟩ := exec_ex (mem := fun _ => true) [.alloc 800, .alloc 24, .alloc 328, .alloc 320, .alloc 32]
    (fun r M => decide ((iter false 8 9 r .all).map (·.map (·.1)) = some [3, 4, 40, 41, 100]) &&
      decide ((iter true 8 9 r (.after 41)).map (·.map (·.1)) = some [40, 4, 3]) &&
      decide (((iterSafe false 8 (purge 8 fun i => i % 2 == 0) 9 r (.from 4)).bind fun t => (iter true 8 9 t.2 .all).map fun u => (t.1.map (·.1), u.map (·.1))) =
        some ([4, 40, 41, 100], [100, 40, 4, 3]))) (by decide +kernel)
  rw [Bool.and_eq_true, Bool.and_eq_true] at hp
  exact ⟨r, M, h, of_decide_eq_true hp.1.1, of_decide_eq_true hp.1.2, of_decide_eq_true hp.2⟩

end Bfdev.Radix

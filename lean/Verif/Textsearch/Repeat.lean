import Verif.Textsearch.Blocks
import Verif.Textsearch.Props
/-!
C86: repeated text search, and texts in several blocks.
-/
namespace Bfdev.Textsearch

/-- C86. Searching again and again with KMP, the text delivered in any blocks, reports exactly the occurrences that do not overlap, from the left, and then
that there are no more. -/
theorem kmp_repeat (pattern text : List Byte) (icase : Bool) (next : Nat → List Byte) (fuel : Nat) (hne : pattern ≠ [])
    (hsz : pattern.length < 1073741824) (hn : Delivers next text) (ht : text.length < 4294967296) (hf : text.length < fuel) :
    ∃ k, kmpPrepare pattern icase = some k ∧ ∃ l, Greedy icase pattern text 0 l ∧
      ∀ n, text.length ≤ n → results (fun o => kmpFind k next o fuel) (n + 1) 0 = some l := by
  obtain ⟨k, e1, -⟩ := kmp_correct pattern text icase next 0 fuel hne hsz hn ht (Nat.zero_le _) hf
  have hpos : 0 < pattern.length := List.length_pos_iff.2 hne
  have key : ∀ d o, o ≤ text.length → text.length - o ≤ d → ∃ l, Greedy icase pattern text o l ∧
      ∀ n, d ≤ n → results (fun o => kmpFind k next o fuel) (n + 1) o = some l := by
    intro d
    induction d with
    | zero =>
      intro o ho hd
      obtain ⟨k', e2, h⟩ := kmp_correct pattern text icase next o fuel hne hsz hn ht ho hf
      rw [e1] at e2; cases e2
      rcases h with ⟨p, -, -, h1, h2, -⟩ | ⟨h1, h2⟩
      · have := h2.1; omega
      · exact ⟨[], .done h2, fun n _ => by simp only [results, h1, Option.bind_some, if_true]⟩
    | succ d ih =>
      intro o ho hd
      obtain ⟨k', e2, h⟩ := kmp_correct pattern text icase next o fuel hne hsz hn ht ho hf
      rw [e1] at e2; cases e2
      rcases h with ⟨p, h1, h2, h3⟩ | ⟨h1, h2⟩
      · have hp := h3.2.1.1
        have hop := h3.1
        obtain ⟨l, g, hl⟩ := ih (p + pattern.length) hp (by omega)
        refine ⟨p :: l, .step h3 g, fun n hn => ?_⟩
        obtain ⟨m, rfl⟩ : ∃ m, n = m + 1 := ⟨n - 1, by omega⟩
        rw [results, h1, Option.bind_some]
        dsimp only
        rw [if_neg (by omega), hl m (by omega), Option.map_some]
      · exact ⟨[], .done h2, fun n _ => by simp only [results, h1, Option.bind_some, if_true]⟩
  obtain ⟨l, g, h⟩ := key text.length 0 (Nat.zero_le _) (by omega)
  exact ⟨k, e1, l, g, h⟩

/-- Every occurrence is reported or overlaps one that is. -/
theorem greedy_covers {icase : Bool} {pattern text : List Byte} {o : Nat} {l : List Nat} (h : Greedy icase pattern text o l) :
    (∀ p ∈ l, o ≤ p ∧ OccursAt icase pattern text p) ∧ l.Pairwise (fun a b => a + pattern.length ≤ b) ∧
    ∀ q, o ≤ q → OccursAt icase pattern text q → ∃ p ∈ l, p ≤ q ∧ (q = p ∨ q < p + pattern.length) := by
  induction h with
  | done h => exact ⟨by simp, List.Pairwise.nil, fun q h1 h2 => absurd h2 (h q h1)⟩
  | step h1 _ ih =>
    obtain ⟨i1, i2, i3⟩ := ih
    refine ⟨?_, List.pairwise_cons.2 ⟨fun b hb => (i1 b hb).1, i2⟩, fun q h2 h3 => ?_⟩
    · intro p hp
      rcases List.mem_cons.1 hp with rfl | hp
      · exact ⟨h1.1, h1.2.1⟩
      · have := i1 p hp
        have := h1.1
        exact ⟨by omega, (i1 p hp).2⟩
    · have := h1.2.2 q h2 h3
      rename_i o p l _
      by_cases hq : q < p + pattern.length
      · exact ⟨p, List.mem_cons_self .., this, Or.inr hq⟩
      · obtain ⟨p', a, b⟩ := i3 q (by omega) h3
        exact ⟨p', List.mem_cons_of_mem _ a, b⟩

theorem sundayBlock_loop (k : Sunday) (mem : List Byte) (length : Nat) : ∀ f s,
    (sundayBlock k mem length f s).map (fun r => match r with | .inl s => s | .inr _ => UINT_MAX) = sundayLoop k mem length f s := by
  intro f
  induction f with
  | zero => intro s; rfl
  | succ f ih =>
    intro s
    rw [sundayBlock, sundayLoop]
    split
    · cases cmpFrom k.icase mem k.pattern s with
      | none => rfl
      | some i =>
        simp only [Option.bind_some]
        split
        · rfl
        · split
          · rfl
          · cases mem[s + k.pattern.length]? with
            | none => rfl
            | some t =>
              simp only [Option.bind_some]
              cases k.shifts[t.toNat]? with
              | none => rfl
              | some d => simp only [Option.bind_some]; exact ih _
    · rfl

theorem sundayBlock_bound (k : Sunday) (mem : List Byte) (length : Nat) (hl : length < 4294967296) : ∀ f s r, s < 4294967296 → sundayBlock k mem length f s = some (.inl r) → r < 4294967296 := by
  intro f
  induction f with
  | zero => intro s r _ h; cases h
  | succ f ih =>
    intro s r hs h
    rw [sundayBlock] at h
    split at h
    · obtain ⟨i, -, h⟩ := Option.bind_eq_some_iff.1 h
      split at h
      · cases h; exact hs
      · split at h
        · cases h
        · obtain ⟨t, -, h⟩ := Option.bind_eq_some_iff.1 h
          obtain ⟨d, -, h⟩ := Option.bind_eq_some_iff.1 h
          exact ih _ _ (Nat.mod_lt _ (by decide)) h
    · cases h

/-- For a contiguous text this is the search of C54. -/
theorem sunday_single (k : Sunday) (mem : List Byte) (length fuel : Nat) (hl : length < 4294967296) :
    sundayAt k (linearSource mem length) (fuel + 2) 0 = (sundayFind k mem length (fuel + 2)).map (·, 0) := by
  rw [sundayAt, sundayFind]
  congr 1
  rw [sundayBlocks]
  by_cases h : length = 0
  · subst h; rfl
  · have h1 : linearSource mem length 0 = (mem, length) := by rw [linearSource, if_pos (by omega)]; rfl
    have h2 : linearSource mem length (w32 (0 + length)) = ([], 0) := by
      rw [linearSource, w32, Nat.zero_add, Nat.mod_eq_of_lt hl, if_neg (Nat.lt_irrefl _)]
    rw [h1]
    dsimp only
    rw [if_neg h, if_neg h, ← sundayBlock_loop]
    cases hb : sundayBlock k mem length (fuel + 2) 0 with
    | none => rfl
    | some r =>
      rw [Option.bind_some, Option.map_some]
      cases r with
      | inl s =>
        dsimp only
        rw [w32, Nat.zero_add, Nat.mod_eq_of_lt (sundayBlock_bound k mem length hl _ _ _ (by decide) hb)]
      | inr s =>
        dsimp only
        rw [sundayBlocks, h2]
        rfl

/-- C86 fails with Sunday: whatever the text, searching again reports the same occurrence again, since the search does not move the offset. -/
theorem sunday_repeat_violated (k : Sunday) (next : Source) (fuel p o' : Nat) (h : sundayAt k next fuel 0 = some (p, o')) (hp : p ≠ UINT_MAX) (n : Nat) :
    results (sundayAt k next fuel) n 0 = some (List.replicate n p) := by
  have e : o' = 0 := by
    unfold sundayAt at h
    obtain ⟨x, -, hx⟩ := Option.map_eq_some_iff.1 h
    cases hx; rfl
  subst e
  induction n with
  | zero => rfl
  | succ n ih => rw [results, h, Option.bind_some]; dsimp only; rw [if_neg hp, ih]; rfl

/-- C86 fails with Boyer-Moore likewise. -/
theorem bm_repeat_violated (k : Bm) (next : Source) (fuel p o' : Nat) (h : bmAt k next fuel 0 = some (p, o')) (hp : p ≠ UINT_MAX) (n : Nat) :
    results (bmAt k next fuel) n 0 = some (List.replicate n p) := by
  have e : o' = 0 := by
    unfold bmAt at h
    obtain ⟨x, -, hx⟩ := Option.map_eq_some_iff.1 h
    cases hx; rfl
  subst e
  induction n with
  | zero => rfl
  | succ n ih => rw [results, h, Option.bind_some]; dsimp only; rw [if_neg hp, ih]; rfl

/-- The text `aaba` in two blocks of two bytes. -/
def twoBlocks : Source := fun c => if c = 0 then ([97, 97, 98, 97], 2) else if c = 2 then ([98, 97], 2) else ([], 0)

/-- C86 fails with Sunday for texts in several blocks: the distance to go on at is kept for the next block, so an occurrence in it is missed. -/
theorem sunday_blocks_violated : ((sundayPrepare [98] false).bind fun k => sundayAt k twoBlocks 9 0) = some (UINT_MAX, 0) ∧ OccursAt false [98] [97, 97, 98, 97] 2 := by
  refine ⟨by decide +kernel, ?_⟩
  unfold OccursAt
  decide

/-- C86 fails with Boyer-Moore for texts in several blocks likewise. -/
theorem bm_blocks_violated : ((bmPrepare [98] false).bind fun k => bmAt k twoBlocks 9 0) = some (UINT_MAX, 0) ∧ OccursAt false [98] [97, 97, 98, 97] 2 := by
  refine ⟨by decide +kernel, ?_⟩
  unfold OccursAt
  decide

/-- `aa` in `aaaaa`, delivered two bytes at a time: found at 0 and 2. -/
example : ((kmpPrepare [97, 97] false).bind fun k => results (fun o => kmpFind k (fun c => ([97, 97, 97, 97, 97].drop c).take 2) o 9) 9 0) = some [0, 2] := by decide +kernel
/-- The hypothesis of `sunday_repeat_violated` and `bm_repeat_violated`. -/
example : ((sundayPrepare [98] false).bind fun k => sundayAt k (linearSource [97, 98, 97, 98, 0] 4) 9 0) = some (1, 0) := by decide +kernel
example : ((bmPrepare [98] false).bind fun k => bmAt k (linearSource [97, 98, 97, 98] 4) 9 0) = some (1, 0) := by decide +kernel

end Bfdev.Textsearch

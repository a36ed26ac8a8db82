import Verif.Array.Spec
import Verif.Scan.Props
import Verif.Fifo.Lemmas
/-! Property theorems for the dynamic array (C08). -/
set_option linter.unusedSimpArgs false
namespace Bfdev.Array
open Bfdev.Fifo (flatten_length flatten_take flatten_drop)

/-- The array holds exactly the elements `xs`. -/
structure Rep (a : Arr) (xs : List (List Byte)) : Prop where
  hc : 1 ≤ a.cells
  hi : a.index = xs.length
  hel : ∀ x ∈ xs, x.length = a.cells
  hcap : a.index ≤ a.capacity
  hnull : a.data = none → a.capacity = 0
  hdata : ∀ m, a.data = some m → a.capacity * a.cells ≤ m.length ∧ m.length ≤ 2 ^ 63 ∧ m.take (a.index * a.cells) = xs.flatten

theorem reqsize_ok {a : Arr} {count : Nat} (hc : 1 ≤ a.cells) (h : max 32 count * a.cells ≤ 2 ^ 63) :
    ∃ size, reqsize a count = some size ∧ max 32 count * a.cells ≤ size ∧ size ≤ 2 ^ 63 := by
  have h32 : 32 * 1 ≤ max 32 count * a.cells := Nat.mul_le_mul (Nat.le_max_left _ _) hc
  have hn : (BitVec.ofNat 64 (max 32 count * a.cells)).toNat = max 32 count * a.cells := by
    rw [BitVec.toNat_ofNat, Nat.mod_eq_of_lt (by omega)]
  obtain ⟨r, k, hr, _, hk, hle, hmin⟩ := Scan.pow2_roundup_correct (BitVec.ofNat 64 (max 32 count * a.cells))
    (by omega) (by omega)
  refine ⟨2 ^ k, ?_, by omega, hmin 63 (by omega)⟩
  unfold reqsize
  simp only [hr, Option.map_some, hk]

theorem apply_ok {a : Arr} {xs} (h : Rep a xs) (count : Nat) (g : Grant) (hb : max 32 count * a.cells ≤ 2 ^ 63) :
    ∃ a' ok, apply a count g = some (a', ok) ∧ Rep a' xs ∧ a'.cells = a.cells ∧
      (ok = true → count ≤ a'.capacity) ∧ (ok = false → g.isNone ∧ a' = a) := by
  unfold apply
  split
  · next hle => exact ⟨a, true, rfl, h, rfl, fun _ => hle, fun e => by cases e⟩
  · next hgt =>
    obtain ⟨size, hs, h1, h2⟩ := reqsize_ok h.hc hb
    have hcnt : count * a.cells ≤ max 32 count * a.cells := Nat.mul_le_mul_right _ (Nat.le_max_right _ _)
    have hpos : 32 * 1 ≤ max 32 count * a.cells := Nat.mul_le_mul (Nat.le_max_left _ _) h.hc
    simp only [hs, bind, Option.bind]
    rw [if_neg (by unfold w64; have := Nat.mod_le (count * a.cells) W64; omega)]
    unfold arrResize realloc
    have hcz : a.cells ≠ 0 := by have := h.hc; omega
    have hcapd : count ≤ size / a.cells := (Nat.le_div_iff_mul_le (by omega)).2 (by omega)
    have hdiv : size / a.cells * a.cells ≤ size := Nat.div_mul_le_self _ _
    cases hd : a.data with
    | none =>
      simp only
      rw [if_neg (by omega)]
      have hidx : a.index = 0 := by have := h.hcap; have := h.hnull hd; omega
      have hxs : xs = [] := by have := h.hi; exact List.length_eq_zero_iff.1 (by omega)
      cases g with
      | none => exact ⟨a, false, by rfl, h, rfl, by simp, fun _ => ⟨rfl, rfl⟩⟩
      | some junk =>
        simp only [if_neg hcz]
        refine ⟨_, true, rfl, ⟨h.hc, h.hi, h.hel, ?_, by simp, ?_⟩, rfl, fun _ => hcapd, fun e => by cases e⟩
        · simp only; omega
        · intro m hm
          simp only [Option.some.injEq] at hm
          subst hm
          simp only [List.length_map, List.length_range, hidx, hxs, Nat.zero_mul, List.take_zero, List.flatten_nil, and_true]
          omega
    | some m =>
      simp only
      rw [if_neg (by omega)]
      cases g with
      | none => exact ⟨a, false, by rfl, h, rfl, by simp, fun _ => ⟨rfl, rfl⟩⟩
      | some junk =>
        simp only [if_neg hcz]
        obtain ⟨d1, d2, d3⟩ := h.hdata m hd
        have hic : a.index * a.cells ≤ a.capacity * a.cells := Nat.mul_le_mul_right _ h.hcap
        have hcc : a.index * a.cells ≤ count * a.cells := Nat.mul_le_mul_right _ (by have := h.hcap; omega)
        refine ⟨_, true, rfl, ⟨h.hc, h.hi, h.hel, ?_, by simp, ?_⟩, rfl, fun _ => hcapd, fun e => by cases e⟩
        · have := h.hcap; simp only; omega
        · intro m' hm
          simp only [Option.some.injEq] at hm
          subst hm
          refine ⟨by simpa using hdiv, by simpa using h2, ?_⟩
          rw [← d3]
          apply List.ext_getElem?
          intro i
          simp only
          rw [List.getElem?_take, List.getElem?_take]
          split
          · next hi =>
            rw [List.getElem?_map, List.getElem?_range (by omega), List.getElem?_eq_getElem (by omega)]
            simp [List.getD_eq_getElem?_getD, List.getElem?_eq_getElem (show i < m.length by omega)]
          · rfl

theorem Rep.off {a : Arr} {xs} (h : Rep a xs) {m} (hm : a.data = some m) {i : Nat} (hi : i ≤ a.capacity) :
    offset a i = i * a.cells ∧ i * a.cells ≤ m.length := by
  obtain ⟨d1, d2, _⟩ := h.hdata m hm
  have : i * a.cells ≤ a.capacity * a.cells := Nat.mul_le_mul_right _ hi
  refine ⟨?_, by omega⟩
  unfold offset w64
  rw [Nat.mul_comm, Nat.mod_eq_of_lt (by simp only [W64]; omega)]

/-- The elements found in a block. -/
def chunks (c n : Nat) (m : List Byte) : List (List Byte) := (List.range n).map (fun i => (m.drop (i * c)).take c)

theorem chunks_succ (c n : Nat) (m : List Byte) : chunks c (n + 1) m = chunks c n m ++ [(m.drop (n * c)).take c] := by
  simp [chunks, List.range_succ]

theorem chunks_flatten (c n : Nat) (m : List Byte) : (chunks c n m).flatten = m.take (n * c) := by
  induction n with
  | zero => simp [chunks]
  | succ n ih =>
    rw [chunks_succ, List.flatten_append, ih, Nat.succ_mul, List.take_add]
    simp

theorem chunks_len (c n : Nat) (m : List Byte) (h : n * c ≤ m.length) : ∀ x ∈ chunks c n m, x.length = c := by
  intro x hx
  simp only [chunks, List.mem_map, List.mem_range] at hx
  obtain ⟨i, hi, rfl⟩ := hx
  have : (i + 1) * c ≤ n * c := Nat.mul_le_mul_right _ hi
  rw [Nat.succ_mul] at this
  simp; omega

theorem slot_eq {xs : List (List Byte)} {c : Nat} (h : ∀ x ∈ xs, x.length = c) (m : List Byte)
    (hm : m.take (xs.length * c) = xs.flatten) (i : Nat) (hi : i < xs.length) : (m.drop (i * c)).take c = xs[i] := by
  have e1 : (m.drop (i * c)).take c = ((m.take (xs.length * c)).drop (i * c)).take c := by
    rw [List.drop_take, List.take_take]
    have : (i + 1) * c ≤ xs.length * c := Nat.mul_le_mul_right _ hi
    rw [Nat.succ_mul] at this
    rw [Nat.min_eq_left (by omega)]
  rw [e1, hm, ← flatten_drop h, List.drop_eq_getElem_cons hi, List.flatten_cons]
  have := h xs[i] (List.getElem_mem hi)
  rw [← this, List.take_left]

/-- Reading the last `n` elements. -/
theorem read_tail {a : Arr} {xs} (h : Rep a xs) (n : Nat) (hn : n ≤ xs.length) (p) (hp : p = ptr a (offset a (a.index - n))) :
    readPtr a p n = some (some (xs.drop (xs.length - n)).flatten) ∨ (n = 0 ∧ readPtr a p n = some none) := by
  subst hp
  unfold readPtr ptr
  cases hd : a.data with
  | none =>
    right
    have := h.hcap; have := h.hnull hd; have := h.hi
    exact ⟨by omega, rfl⟩
  | some m =>
    left
    have hi := h.hi
    have hcap := h.hcap
    obtain ⟨o1, o2⟩ := h.off hd (i := a.index - n) (by omega)
    obtain ⟨o3, o4⟩ := h.off hd (i := a.index) (by omega)
    obtain ⟨_, _, d3⟩ := h.hdata m hd
    have e : (a.index - n) * a.cells + n * a.cells = a.index * a.cells := by rw [← Nat.add_mul]; congr 1; omega
    simp only [Option.map_some]
    rw [o1, rd_eq_some (by omega), flatten_drop h.hel, ← d3, ← hi, List.drop_take]
    simp only [Option.map_some]
    congr 3; omega

theorem step_refines {a : Arr} {xs} (h : Rep a xs) (op : Op) (hok : op.Ok a.cells a.index) :
    ∃ a' o xs', step a op = some (a', o) ∧ SpecStep a.cells xs op o xs' ∧ Rep a' xs' ∧ a'.cells = a.cells := by
  have hidx := h.hi
  cases op with
  | push es g =>
    obtain ⟨hel, hsz⟩ := hok
    by_cases hov : a.index + es.length ≥ W64
    · refine ⟨a, .ok false, xs, ?_, Or.inr ⟨rfl, rfl, Or.inr (Or.inl ?_)⟩, h, rfl⟩
      · simp [step, push, hov, writePtr]
      · rw [← hidx]; exact hov
    · have hb : max 32 (a.index + es.length) * a.cells ≤ 2 ^ 63 := by
        rcases hsz with h1 | h1
        · exact absurd h1 hov
        · exact h1
      obtain ⟨a1, ok, he, hr, hcell, hokt, hokf⟩ := apply_ok h (a.index + es.length) g hb
      cases ok with
      | false =>
        obtain ⟨hg, rfl⟩ := hokf rfl
        refine ⟨a1, .ok false, xs, ?_, Or.inr ⟨rfl, rfl, Or.inl hg⟩, h, rfl⟩
        simp [step, push, if_neg hov, he, writePtr]
      | true =>
        have hcap := hokt rfl
        have hidx1 := hr.hi
        cases hd : a1.data with
        | none =>
          have := hr.hnull hd
          have hes : es = [] := List.length_eq_zero_iff.1 (by omega)
          subst hes
          refine ⟨{ a1 with index := a.index }, .ok false, xs, ?_, Or.inr ⟨rfl, rfl, Or.inr (Or.inr rfl)⟩,
            ⟨hr.hc, hidx, hr.hel, by simp only; simp at hcap; omega, hr.hnull, fun m hm => by simp only at hm; rw [hd] at hm; cases hm⟩, hcell⟩
          simp only [List.length_nil, Nat.add_zero] at he hov
          simp [step, push, if_neg hov, he, writePtr, ptr, hd]
        | some m =>
          obtain ⟨d1, d2, d3⟩ := hr.hdata m hd
          obtain ⟨o1, o2⟩ := hr.off hd (i := a1.index) hr.hcap
          have hfl := flatten_length hel
          rw [← hcell] at hfl
          have hfit : a1.index * a1.cells + es.flatten.length ≤ m.length := by
            rw [hfl, ← Nat.add_mul]
            have : (a1.index + es.length) * a1.cells ≤ a1.capacity * a1.cells := Nat.mul_le_mul_right _ (by omega)
            omega
          have ho : ∀ n d, offset { a1 with index := n, data := d } a1.index = a1.index * a1.cells := fun n d => o1
          refine ⟨{ a1 with index := a.index + es.length, data := some (m.take (a1.index * a1.cells) ++ es.flatten ++ m.drop (a1.index * a1.cells + es.flatten.length)) },
            .ok true, xs ++ es, ?_, Or.inl ⟨rfl, rfl⟩, ⟨hr.hc, by simp; omega, ?_, hcap, by simp, ?_⟩, hcell⟩
          · simp only [step, push, if_neg hov, he, bind, Option.bind, if_true, pure, ptr, hd, ho, Option.map_some, writePtr,
              wr_eq_some hfit, Option.isSome_some]
          · intro x hx
            rcases List.mem_append.1 hx with hx | hx
            · exact hr.hel x hx
            · show x.length = a1.cells; rw [hcell]; exact hel x hx
          · intro m' hm'
            simp only [Option.some.injEq] at hm'
            subst hm'
            refine ⟨by rw [splice_length _ _ _ hfit]; exact d1, by rw [splice_length _ _ _ hfit]; exact d2, ?_⟩
            have e : (a.index + es.length) * a1.cells = a1.index * a1.cells + es.flatten.length := by
              rw [hfl, ← Nat.add_mul]; congr 1; omega
            simp only
            rw [e, d3, List.flatten_append]
            have hl : (xs.flatten ++ es.flatten).length = a1.index * a1.cells + es.flatten.length := by
              rw [List.length_append, flatten_length hr.hel, ← hr.hi]
            rw [← hl, List.take_left]
  | pop n =>
    by_cases hn : n ≤ xs.length
    · have hp : pop a n = ({ a with index := a.index - n }, ptr a (offset a (a.index - n))) := by
        unfold pop peekAt; rw [if_neg (by omega)]
      have hread : ∀ r, readPtr a (ptr a (offset a (a.index - n))) n = r →
          readPtr { a with index := a.index - n } (ptr a (offset a (a.index - n))) n = r := fun r hr => hr
      have hrep : Rep { a with index := a.index - n } (xs.take (xs.length - n)) := by
        refine ⟨h.hc, by simp; omega, fun x hx => h.hel x (List.mem_of_mem_take hx), by simp only; have := h.hcap; omega, h.hnull, fun m hm => ?_⟩
        obtain ⟨d1, d2, d3⟩ := h.hdata m hm
        refine ⟨d1, d2, ?_⟩
        simp only
        rw [flatten_take h.hel, ← d3, List.take_take, ← hidx]
        congr 1
        rw [Nat.min_eq_left (Nat.mul_le_mul_right _ (by omega))]
      rcases read_tail h n hn _ rfl with hr | ⟨h0, hr⟩
      · refine ⟨_, .bytes (some (xs.drop (xs.length - n)).flatten), _, ?_, ?_, hrep, rfl⟩
        · simp only [step, hp, hread _ hr, bind, Option.bind, pure]
        · simp [SpecStep, if_pos hn]
      · refine ⟨_, .bytes none, _, ?_, ?_, hrep, rfl⟩
        · simp only [step, hp, hread _ hr, bind, Option.bind, pure]
        · simp [SpecStep, if_pos hn, h0]
    · refine ⟨a, .bytes none, xs, ?_, ?_, h, rfl⟩
      · simp [step, pop, peekAt, if_pos (show a.index < n by omega), readPtr]
      · simp [SpecStep, if_neg hn]
  | peek n =>
    by_cases hn : n ≤ xs.length
    · have hp : peek a n = ptr a (offset a (a.index - n)) := by
        unfold peek peekAt; rw [if_neg (by omega)]; rfl
      rcases read_tail h n hn _ rfl with hr | ⟨h0, hr⟩
      · refine ⟨a, .bytes (some (xs.drop (xs.length - n)).flatten), xs, ?_, ⟨rfl, ?_⟩, h, rfl⟩
        · simp only [step, hp, hr, bind, Option.bind, pure]
        · simp [if_pos hn]
      · refine ⟨a, .bytes none, xs, ?_, ⟨rfl, ?_⟩, h, rfl⟩
        · simp only [step, hp, hr, bind, Option.bind, pure]
        · simp [if_pos hn, h0]
    · refine ⟨a, .bytes none, xs, ?_, ⟨rfl, ?_⟩, h, rfl⟩
      · simp [step, peek, peekAt, if_pos (show a.index < n by omega), readPtr]
      · simp [if_neg hn]
  | get i =>
    by_cases hi : i < xs.length
    · cases hd : a.data with
      | none => have := h.hcap; have := h.hnull hd; omega
      | some m =>
        obtain ⟨d1, d2, d3⟩ := h.hdata m hd
        have hcap := h.hcap
        obtain ⟨o1, o2⟩ := h.off hd (i := i) (by omega)
        obtain ⟨o3, o4⟩ := h.off hd (i := i + 1) (by omega)
        rw [Nat.succ_mul] at o4
        refine ⟨a, .bytes (some xs[i]), xs, ?_, ⟨rfl, by rw [List.getElem?_eq_getElem hi]⟩, h, rfl⟩
        have : (m.drop (i * a.cells)).take (1 * a.cells) = xs[i] := by
          rw [Nat.one_mul]; exact slot_eq h.hel m (by rw [← hidx]; exact d3) i hi
        simp only [step, dataAt, if_neg (show ¬ i ≥ a.index by omega), ptr, hd, Option.map_some, readPtr, o1,
          rd_eq_some (show i * a.cells + 1 * a.cells ≤ m.length by omega), this, bind, Option.bind, pure]
    · refine ⟨a, .bytes none, xs, ?_, ⟨rfl, by rw [List.getElem?_eq_none (by omega)]⟩, h, rfl⟩
      simp [step, dataAt, if_pos (show i ≥ a.index by omega), readPtr]
  | resize n g =>
    obtain ⟨a1, ok, he, hr, hcell, hokt, hokf⟩ := apply_ok h n g hok
    cases ok with
    | false =>
      obtain ⟨hg, rfl⟩ := hokf rfl
      exact ⟨a1, .ok false, xs, by simp [step, resize, he], Or.inr ⟨rfl, rfl, hg⟩, h, rfl⟩
    | true =>
      have hcap := hokt rfl
      cases hd : a1.data with
      | none =>
        have := hr.hnull hd
        have : n = 0 := by omega
        subst this
        refine ⟨{ a1 with index := 0 }, .ok true, [], by simp [step, resize, he], Or.inl ⟨rfl, rfl, by simp, fun i hi => by omega⟩,
          ⟨hr.hc, rfl, by simp, by simp, hr.hnull, fun m hm => by simp only at hm; rw [hd] at hm; cases hm⟩, hcell⟩
      | some m =>
        obtain ⟨d1, d2, d3⟩ := hr.hdata m hd
        have hn : n * a1.cells ≤ m.length := Nat.le_trans (Nat.mul_le_mul_right _ hcap) d1
        have hcl : ∀ x ∈ chunks a1.cells n m, x.length = a1.cells := chunks_len _ _ _ hn
        refine ⟨{ a1 with index := n }, .ok true, chunks a1.cells n m, by simp [step, resize, he],
          Or.inl ⟨rfl, by simp [chunks], by rw [← hcell]; exact hcl, fun i hi hix => ?_⟩,
          ⟨hr.hc, by simp [chunks], hcl, hcap, hr.hnull, fun m' hm' => ?_⟩, hcell⟩
        · rw [List.getElem?_eq_getElem hix]
          simp only [chunks, List.getElem?_map, List.getElem?_range hi, Option.map_some]
          congr 1
          exact slot_eq hr.hel m (by rw [← hr.hi]; exact d3) i hix
        · simp only at hm'
          rw [hd] at hm'
          injection hm' with hm'
          subst hm'
          exact ⟨d1, d2, (chunks_flatten _ _ _).symm⟩
  | reserve n g =>
    by_cases hov : a.index + n ≥ W64
    · refine ⟨a, .ok false, xs, by simp [step, reserve, hov], ⟨rfl, Or.inr ⟨rfl, Or.inr ?_⟩⟩, h, rfl⟩
      rw [← hidx]; exact hov
    · have hb : max 32 (a.index + n) * a.cells ≤ 2 ^ 63 := by
        rcases hok with h1 | h1
        · exact absurd h1 hov
        · exact h1
      obtain ⟨a1, ok, he, hr, hcell, hokt, hokf⟩ := apply_ok h (a.index + n) g hb
      refine ⟨a1, .ok ok, xs, by simp [step, reserve, if_neg hov, he], ⟨rfl, ?_⟩, hr, hcell⟩
      cases ok with
      | true => exact Or.inl rfl
      | false => exact Or.inr ⟨rfl, Or.inl (hokf rfl).1⟩
  | getIndex => exact ⟨a, .count a.index, xs, rfl, ⟨rfl, by rw [hidx]⟩, h, rfl⟩
  | reset =>
    exact ⟨reset a, .ok true, [], rfl, ⟨rfl, rfl⟩, ⟨h.hc, rfl, by simp, by simp [reset], h.hnull, fun m hm => by
      obtain ⟨d1, d2, _⟩ := h.hdata m hm
      exact ⟨d1, d2, by simp [reset]⟩⟩, rfl⟩
  | release =>
    exact ⟨release a, .ok true, [], rfl, ⟨rfl, rfl⟩, ⟨h.hc, rfl, by simp, by simp [release], fun _ => rfl, fun m hm => by
      simp [release] at hm⟩, rfl⟩

/-- The caller's obligations along a history (the current length is the one the array reports). -/
def OkRun (a : Arr) : List Op → Prop
  | [] => True
  | op :: ops => op.Ok a.cells a.index ∧ ∀ a' o, step a op = some (a', o) → OkRun a' ops

theorem run_refines {a : Arr} {xs} (h : Rep a xs) (ops : List Op) (hok : OkRun a ops) :
    ∃ os, run a ops = some os ∧ SpecRun a.cells xs ops os := by
  induction ops generalizing a xs with
  | nil => exact ⟨[], rfl, .nil⟩
  | cons op ops ih =>
    obtain ⟨a', o, xs', h1, h2, h3, h4⟩ := step_refines h op hok.1
    obtain ⟨os, h5, h6⟩ := ih h3 (hok.2 a' o h1)
    exact ⟨o :: os, by simp [run, h1, h5], .cons h2 (h4 ▸ h6)⟩

/-- **C08.** For every history of calls on a fresh array, with any pattern of allocator refusals, the array stays inside
its block and answers like a list; a failed call changes nothing. Missing from the full property: requests of more than
`2^63` bytes, for which see `array_push_violated`. -/
theorem array_is_list_partial (cells : Nat) (hc : 1 ≤ cells) (ops : List Op) (hok : OkRun (init cells) ops) :
    ∃ os, run (init cells) ops = some os ∧ SpecRun cells [] ops os :=
  run_refines (a := init cells) ⟨hc, rfl, by simp, by simp [init], fun _ => rfl, fun m hm => by simp [init] at hm⟩ ops hok

/-- **C08 fails** for huge requests: the byte count wraps, so a push of `2^61 + 1` eight-byte elements succeeds with room
for a single one, and a push of `2^61` elements frees the block under a live array. -/
theorem array_push_violated :
    push (init 8) (2 ^ 61 + 1) (some fun _ => 0) =
      some ({ cells := 8, capacity := 1, index := 2 ^ 61 + 1, data := some (List.replicate 8 0) }, some 0) ∧
    push { cells := 8, capacity := 1, index := 1, data := some [1, 2, 3, 4, 5, 6, 7, 8] } (2 ^ 61 - 1) (some fun _ => 0) =
      some ({ cells := 8, capacity := 1, index := 1, data := some [] }, none) := by decide +kernel

/-- A non-trivial history meeting the hypotheses, with an allocator refusal in the middle. -/
def demo : List Op :=
  [.push [[1, 2], [3, 4], [5, 6]] (some fun _ => 9), .reserve 1000 none, .pop 1, .push [[7, 8]] none, .peek 2, .get 0, .getIndex]
example : run (init 2) demo = some [.ok true, .ok false, .bytes (some [5, 6]), .ok true, .bytes (some [3, 4, 7, 8]),
    .bytes (some [1, 2]), .count 3] := by decide +kernel

example : OkRun (init 2) [.push [[1, 2], [3, 4]] (some fun _ => 9), .resize 1 none, .pop 1] := by
  refine ⟨⟨by simp [init], by right; simp [init]⟩, fun a' o h => ⟨?_, fun _ _ _ => ⟨trivial, fun _ _ _ => trivial⟩⟩⟩
  have : a'.cells = 2 := by
    have e : step (init 2) (.push [[1, 2], [3, 4]] (some fun _ => 9)) =
      some ({ cells := 2, capacity := 32, index := 2, data := some ([1, 2, 3, 4] ++ List.replicate 60 9) }, .ok true) := by
      decide +kernel
    rw [e] at h
    injection h with h
    rw [← (Prod.mk.inj h).1]
  simp [Op.Ok, this]

end Bfdev.Array

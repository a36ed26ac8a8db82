import Verif.Life.Props
/-!
C117: the memory behind arrays, and behind the matrices and big integers made of them: `src/array.c` on the world of live blocks of `Life`, with the
temporaries of `bfdev_matrix_mul`, `mpi_mul` and `mpi_div`. Contents are the business of C08, C38 and C41.
-/
set_option linter.unusedSimpArgs false
set_option linter.unusedVariables false
namespace Bfdev.Array.Mem
open Life (World Block malloc free Ok LeastPow2)

/-- `bfdev_array_t`, array.h:31-37; `data` is an address, 0 for NULL. -/
structure Obj where
  alloc : Nat
  cells : Nat
  capacity : Nat
  index : Nat
  data : Nat
deriving DecidableEq, Repr

/-- `bfdev_realloc`, allocator.c:76-98: NULL is allocated, size zero frees, otherwise the block, which must be live, is replaced by one of the new size or, if
the allocator refuses, kept. Simplified: the new block always has a new address, so that a stale pointer to the old one is noticed. -/
def realloc (w : World) (alloc block size : Nat) : Option (World × Nat) :=
  if block = 0 then some (malloc w alloc size)
  else if size = 0 then (free w alloc block).map fun w => (w, 0)
  else (free w alloc block).map fun w' =>
    if w.fail w.calls then ({ w with calls := w.calls + 1 }, 0)
    else (({ w' with live := ⟨alloc, w'.next, size⟩ :: w'.live, next := w'.next + 1, calls := w'.calls + 1 } : World), w'.next)

/-- `array_reqsize`, array.c:12-22. -/
def reqsize (a : Obj) (count : Nat) : Option Nat := (Scan.pow2Roundup (BitVec.ofNat 64 (max 32 count * a.cells))).map BitVec.toNat

/-- `array_resize`, array.c:24-39; the division by a zero `cells` is undefined. -/
def setSize (w : World) (a : Obj) (size : Nat) : Option (World × Obj × Bool) := do
  let (w, data) ← realloc w a.alloc a.data size
  if data = 0 then return (w, a, false)
  if a.cells = 0 then none
  return (w, { a with data := data, capacity := size / a.cells }, true)

/-- `array_apply`, array.c:41-53. -/
def apply (w : World) (a : Obj) (count : Nat) : Option (World × Obj × Bool) :=
  if count ≤ a.capacity then some (w, a, true)
  else do
    let size ← reqsize a count
    if count * a.cells % 2 ^ 64 > size then none else setSize w a size

/-- `bfdev_array_push`, array.c:74-95. -/
def push (w : World) (a : Obj) (num : Nat) : Option (World × Obj × Bool) :=
  if a.index + num ≥ 2 ^ 64 then some (w, a, false)
  else do
    let (w, a', ok) ← apply w a (a.index + num)
    return (w, if ok then { a' with index := a.index + num } else a', ok)

/-- `bfdev_array_pop`, array.c:97-101. -/
def pop (a : Obj) (num : Nat) : Obj := if a.index < num then a else { a with index := a.index - num }

/-- `bfdev_array_resize`, array.c:109-121. -/
def resize (w : World) (a : Obj) (num : Nat) : Option (World × Obj × Bool) := do
  let (w, a', ok) ← apply w a num
  return (w, if ok then { a' with index := num } else a', ok)

/-- `bfdev_array_reserve`, array.c:123-134. -/
def reserve (w : World) (a : Obj) (num : Nat) : Option (World × Obj × Bool) :=
  if a.index + num ≥ 2 ^ 64 then some (w, a, false) else apply w a (a.index + num)

/-- `bfdev_array_release`, array.c:136-147. -/
def release (w : World) (a : Obj) : Option (World × Obj) := do
  let w ← free w a.alloc a.data
  return (w, { a with capacity := 0, index := 0, data := 0 })

/-- `bfdev_array_init`, array.h:54-58. -/
def init (alloc cells : Nat) : Obj := ⟨alloc, cells, 0, 0, 0⟩

/-- A result computed into a temporary and then copied: `bfdev_matrix_mul` with the result among the factors, matrix.c:65-117, `mpi_mul` with aliases, mpi.c:715-761,
and `mpi_div` with the dividend as quotient, mpi.c:831-905. The temporary lives in the allocator of the result. It is given `n` elements and, if that is refused, the call ends;
otherwise `m` of them (leading zeros are dropped from big integers) go to the result, and the temporary is released whether or not the result could be resized, which is
the flag here; big integers do not report it, see `square_refused_violated` of C41. -/
def viaTemp (w : World) (a : Obj) (n m : Nat) : Option (World × Obj × Bool) := do
  let (w, t, ok) ← resize w (init a.alloc a.cells) n
  if !ok then return (w, a, false)
  let (w, a, ok) ← resize w a m
  let (w, _) ← release w t
  return (w, a, ok)

/-- A call on array number `i`, or the definition of another array. -/
inductive Op where
  | new (alloc cells : Nat)
  | push (i num : Nat)
  | pop (i num : Nat)
  | resize (i num : Nat)
  | reserve (i num : Nat)
  | reset (i : Nat)
  | viaTemp (i n m : Nat)
  | release (i : Nat)

/-- The arrays and the world; calls on arrays that were not defined are ignored. -/
abbrev State := World × List Obj

def on (s : State) (i : Nat) (f : Obj → Option (World × Obj × Bool)) : Option (State × Bool) :=
  match s.2[i]? with
  | none => some (s, false)
  | some a => (f a).map fun r => ((r.1, s.2.set i r.2.1), r.2.2)

/-- One call and whether it reports success. -/
def step (s : State) : Op → Option (State × Bool)
  | .new alloc cells => some ((s.1, s.2 ++ [init alloc cells]), true)
  | .push i num => on s i fun a => push s.1 a num
  | .pop i num => on s i fun a => some (s.1, pop a num, decide (num ≤ a.index))
  | .resize i num => on s i fun a => resize s.1 a num
  | .reserve i num => on s i fun a => reserve s.1 a num
  | .reset i => on s i fun a => some (s.1, { a with index := 0 }, true)
  | .viaTemp i n m => on s i fun a => viaTemp s.1 a n m
  | .release i => on s i fun a => (release s.1 a).map fun r => (r.1, r.2, true)

def run (s : State) : List Op → Option State
  | [] => some s
  | op :: ops => do
    let r ← step s op
    run r.1 ops

/-- Releasing every array. -/
def releaseAll (w : World) : List Obj → Option World
  | [] => some w
  | a :: as => do
    let r ← release w a
    releaseAll r.1 as

/-! ## Specification -/

/-- What a request may ask for: at least 32 elements and the wanted number must not exceed `2^63` bytes. -/
def Fits (a : Obj) (count : Nat) : Prop := max 32 count * a.cells ≤ 2 ^ 63

/-- The guard of a call: its request fits; arrays have elements of at least one byte. -/
def Op.Ok (s : State) : Op → Prop
  | .new _ cells => 1 ≤ cells
  | .push i num | .reserve i num => ∀ a, s.2[i]? = some a → Fits a (a.index + num)
  | .resize i num => ∀ a, s.2[i]? = some a → Fits a num
  | .viaTemp i n m => ∀ a, s.2[i]? = some a → Fits a n ∧ Fits a m
  | .pop _ _ | .reset _ | .release _ => True

def OkRun (s : State) : List Op → Prop
  | [] => True
  | op :: ops => op.Ok s ∧ ∀ r, step s op = some r → OkRun r.1 ops

/-- The blocks of the arrays: one each for those that have memory, of `size` bytes. -/
def blocks : List (Obj × Nat) → List Block
  | [] => []
  | (a, size) :: r => if a.data = 0 then blocks r else ⟨a.alloc, a.data, size⟩ :: blocks r

/-- An array and the size of its block: without a block it holds nothing; with one, the block is a power of two that holds the capacity and at least
32 elements. -/
def Good (p : Obj × Nat) : Prop :=
  1 ≤ p.1.cells ∧ p.1.index ≤ p.1.capacity ∧ (p.1.data = 0 → p.1.capacity = 0) ∧
  (p.1.data ≠ 0 → (∃ k, p.2 = 2 ^ k) ∧ 32 * p.1.cells ≤ p.2 ∧ p.1.capacity = p.2 / p.1.cells)

/-- `R` are the blocks of others. -/
def Inv (R : List Block) (s : State) : Prop :=
  Life.Ok s.1 ∧ ∃ sizes : List (Obj × Nat), sizes.map (·.1) = s.2 ∧ (∀ p ∈ sizes, Good p) ∧ s.1.live.Perm (blocks sizes ++ R)

/-! ## Proofs -/

theorem realloc_null {w : World} (h : Ok w) (alloc size : Nat) :
    ∃ w' d, realloc w alloc 0 size = some (w', d) ∧ Ok w' ∧
      (d = 0 ∧ w'.live = w.live ∨ d ≠ 0 ∧ size ≠ 0 ∧ w'.live = ⟨alloc, d, size⟩ :: w.live) := by
  obtain ⟨h1, _, h2⟩ := Life.malloc_spec h alloc size
  refine ⟨(malloc w alloc size).1, (malloc w alloc size).2, by simp [realloc], h1, ?_⟩
  rcases h2 with ⟨a, b, _⟩ | ⟨a, b, c⟩
  · exact Or.inl ⟨a, b⟩
  · exact Or.inr ⟨a, b, c⟩

theorem realloc_live {w : World} (h : Ok w) {b : Block} {R : List Block} (hp : w.live.Perm (b :: R)) (size : Nat) (hs : size ≠ 0) :
    ∃ w' d, realloc w b.alloc b.addr size = some (w', d) ∧ Ok w' ∧
      (d = 0 ∧ w'.live = w.live ∨ d ≠ 0 ∧ w'.live.Perm (⟨b.alloc, d, size⟩ :: R)) := by
  obtain ⟨w1, e1, o1, p1, f1⟩ := Life.free_spec h hp
  have hb : b ∈ w.live := hp.mem_iff.2 (by simp)
  have h0 : b.addr ≠ 0 := by have := h.below b hb; omega
  unfold realloc
  rw [if_neg h0, if_neg hs, e1]
  simp only [Option.map_some]
  by_cases hf : w.fail w.calls = true
  · rw [if_pos hf]
    exact ⟨_, _, rfl, ⟨h.pos, h.below, h.nodup⟩, Or.inl ⟨rfl, rfl⟩⟩
  · rw [if_neg hf]
    have hpos := o1.pos
    refine ⟨_, _, rfl, ⟨?_, ?_, ?_⟩, Or.inr ⟨by omega, List.Perm.cons _ p1⟩⟩
    · show 0 < w1.next + 1; omega
    · intro c hc
      simp only [List.mem_cons] at hc
      rcases hc with rfl | hc
      · exact ⟨hpos, by show w1.next < w1.next + 1; omega⟩
      · have := o1.below c hc; exact ⟨this.1, by show c.addr < w1.next + 1; omega⟩
    · simp only [List.map_cons, List.nodup_cons]
      refine ⟨fun hm => ?_, o1.nodup⟩
      obtain ⟨c, hc, e⟩ := List.mem_map.1 hm
      have := o1.below c hc; omega

/-- The block of one array. -/
def own (p : Obj × Nat) : List Block := if p.1.data = 0 then [] else [⟨p.1.alloc, p.1.data, p.2⟩]

theorem blocks_append (l r : List (Obj × Nat)) : blocks (l ++ r) = blocks l ++ blocks r := by
  induction l with
  | nil => rfl
  | cons p l ih =>
    obtain ⟨a, n⟩ := p
    simp only [List.cons_append, blocks]
    split
    · exact ih
    · simp only [ih, List.cons_append]

theorem blocks_cons (p : Obj × Nat) (r : List (Obj × Nat)) : blocks (p :: r) = own p ++ blocks r := by
  obtain ⟨a, n⟩ := p
  simp only [blocks, own]
  split <;> simp

/-- The outcome of a request on one array, `R` being all other blocks. -/
def Done (R : List Block) (w : World) (p : Obj × Nat) (w' : World) (a' : Obj) (ok : Bool) : Prop :=
  Ok w' ∧ (ok = false → a' = p.1 ∧ w'.live = w.live) ∧ ∃ size', Good (a', size') ∧ w'.live.Perm (own (a', size') ++ R) ∧ a'.alloc = p.1.alloc ∧ a'.cells = p.1.cells ∧
    a'.index = p.1.index

theorem apply_done {R : List Block} {w : World} (h : Ok w) {p : Obj × Nat} (g : Good p) (hp : w.live.Perm (own p ++ R)) {count : Nat} (hf : Fits p.1 count) :
    ∃ w' a' ok, apply w p.1 count = some (w', a', ok) ∧ Done R w p w' a' ok ∧ (ok = true → count ≤ a'.capacity) := by
  obtain ⟨a, n⟩ := p
  obtain ⟨g1, g2, g3, g4⟩ := g
  simp only at g1 g2 g3 g4
  unfold Fits at hf
  simp only at hf
  unfold apply
  by_cases hc : count ≤ a.capacity
  · simp only [if_pos hc]
    exact ⟨w, a, true, rfl, ⟨h, fun _ => ⟨rfl, rfl⟩, n, ⟨g1, g2, g3, g4⟩, hp, rfl, rfl, rfl⟩, fun _ => hc⟩
  · simp only [if_neg hc]
    obtain ⟨r, e, _, e2⟩ := Life.roundup hf
    have hle : 32 * a.cells ≤ max 32 count * a.cells := Nat.mul_le_mul_right _ (by omega)
    have hle2 : count * a.cells ≤ max 32 count * a.cells := Nat.mul_le_mul_right _ (by omega)
    have hl := e2 (by omega)
    have hlr := hl.2.1
    have he : reqsize a count = some r.toNat := by unfold reqsize; simp only [e, Option.map_some]
    simp only [he, Option.bind_eq_bind, Option.bind_some]
    rw [if_neg (by have := Nat.mod_le (count * a.cells) (2 ^ 64); omega)]
    have hr0 : r.toNat ≠ 0 := by omega
    have hcap : count ≤ r.toNat / a.cells := (Nat.le_div_iff_mul_le g1).2 (by omega)
    have hc0 : a.cells ≠ 0 := by omega
    have fin : ∀ (w' : World) (d : Nat), realloc w a.alloc a.data r.toNat = some (w', d) → Ok w' →
        (d = 0 ∧ w'.live = w.live ∨ d ≠ 0 ∧ w'.live.Perm (⟨a.alloc, d, r.toNat⟩ :: R)) →
        ∃ w' a' ok, setSize w a r.toNat = some (w', a', ok) ∧ Done R w (a, n) w' a' ok ∧ (ok = true → count ≤ a'.capacity) := by
      intro w' d e1 o1 hd
      unfold setSize
      simp only [e1, Option.bind_eq_bind, Option.bind_some]
      rcases hd with ⟨rfl, hlv⟩ | ⟨hd, hlv⟩
      · simp only [if_pos rfl]
        exact ⟨w', a, false, rfl, ⟨o1, fun _ => ⟨rfl, hlv⟩, n, ⟨g1, g2, g3, g4⟩, by rw [hlv]; exact hp, rfl, rfl, rfl⟩, fun e => by cases e⟩
      · simp only [if_neg hd, if_neg hc0]
        refine ⟨w', _, true, rfl, ⟨o1, (by intro e; cases e), r.toNat, ⟨g1, ?_, fun e => absurd e hd, fun _ => ⟨hl.1, by show 32 * a.cells ≤ _; omega, rfl⟩⟩, ?_, rfl, rfl, rfl⟩, fun _ => hcap⟩
        · show a.index ≤ r.toNat / a.cells; omega
        · simp only [own, if_neg hd, List.singleton_append]; exact hlv
    by_cases h0 : a.data = 0
    · obtain ⟨w', d, e1, o1, hd⟩ := realloc_null h a.alloc r.toNat
      refine fin w' d (by rw [h0]; exact e1) o1 ?_
      simp only [own, h0, if_true, List.nil_append] at hp
      rcases hd with hd | ⟨hd, _, hlv⟩
      · exact Or.inl hd
      · exact Or.inr ⟨hd, by rw [hlv]; exact List.Perm.cons _ hp⟩
    · simp only [own, if_neg h0, List.singleton_append] at hp
      obtain ⟨w', d, e1, o1, hd⟩ := realloc_live h hp r.toNat hr0
      exact fin w' d e1 o1 hd

/-- What is known after a call on one array that succeeds or fails without effect. -/
def Kept (R : List Block) (w : World) (a : Obj) (w' : World) (a' : Obj) (ok : Bool) : Prop :=
  Ok w' ∧ (ok = false → a' = a ∧ w'.live = w.live) ∧ ∃ size', Good (a', size') ∧ w'.live.Perm (own (a', size') ++ R) ∧ a'.alloc = a.alloc ∧ a'.cells = a.cells

theorem push_kept {R : List Block} {w : World} (h : Ok w) {p : Obj × Nat} (g : Good p) (hp : w.live.Perm (own p ++ R)) {num : Nat} (hf : Fits p.1 (p.1.index + num)) :
    ∃ w' a' ok, push w p.1 num = some (w', a', ok) ∧ Kept R w p.1 w' a' ok ∧ (ok = true → a'.index = p.1.index + num) := by
  unfold push
  by_cases ho : p.1.index + num ≥ 2 ^ 64
  · simp only [if_pos ho]
    exact ⟨w, p.1, false, rfl, ⟨h, fun _ => ⟨rfl, rfl⟩, p.2, g, hp, rfl, rfl⟩, (by intro e; cases e)⟩
  · simp only [if_neg ho]
    obtain ⟨w', a', ok, e, ⟨d1, d2, n', d3, d4, d5, d6, d7⟩, hc⟩ := apply_done h g hp hf
    simp only [e, Option.bind_eq_bind, Option.bind_some]
    cases ok with
    | false => exact ⟨w', a', false, rfl, ⟨d1, d2, n', d3, d4, d5, d6⟩, (by intro e; cases e)⟩
    | true =>
      refine ⟨w', _, true, rfl, ⟨d1, (by intro e; cases e), n', ⟨d3.1, hc rfl, d3.2.2.1, d3.2.2.2⟩, d4, d5, d6⟩, fun _ => rfl⟩

theorem resize_kept {R : List Block} {w : World} (h : Ok w) {p : Obj × Nat} (g : Good p) (hp : w.live.Perm (own p ++ R)) {num : Nat} (hf : Fits p.1 num) :
    ∃ w' a' ok, resize w p.1 num = some (w', a', ok) ∧ Kept R w p.1 w' a' ok ∧ (ok = true → a'.index = num) := by
  unfold resize
  obtain ⟨w', a', ok, e, ⟨d1, d2, n', d3, d4, d5, d6, d7⟩, hc⟩ := apply_done h g hp hf
  simp only [e, Option.bind_eq_bind, Option.bind_some]
  cases ok with
  | false => exact ⟨w', a', false, rfl, ⟨d1, d2, n', d3, d4, d5, d6⟩, (by intro e; cases e)⟩
  | true => exact ⟨w', _, true, rfl, ⟨d1, (by intro e; cases e), n', ⟨d3.1, hc rfl, d3.2.2.1, d3.2.2.2⟩, d4, d5, d6⟩, fun _ => rfl⟩

theorem reserve_kept {R : List Block} {w : World} (h : Ok w) {p : Obj × Nat} (g : Good p) (hp : w.live.Perm (own p ++ R)) {num : Nat} (hf : Fits p.1 (p.1.index + num)) :
    ∃ w' a' ok, reserve w p.1 num = some (w', a', ok) ∧ Kept R w p.1 w' a' ok ∧ a'.index = p.1.index ∧ (ok = true → p.1.index + num ≤ a'.capacity) := by
  unfold reserve
  by_cases ho : p.1.index + num ≥ 2 ^ 64
  · simp only [if_pos ho]
    exact ⟨w, p.1, false, rfl, ⟨h, fun _ => ⟨rfl, rfl⟩, p.2, g, hp, rfl, rfl⟩, rfl, (by intro e; cases e)⟩
  · simp only [if_neg ho]
    obtain ⟨w', a', ok, e, ⟨d1, d2, n', d3, d4, d5, d6, d7⟩, hc⟩ := apply_done h g hp hf
    exact ⟨w', a', ok, e, ⟨d1, d2, n', d3, d4, d5, d6⟩, d7, hc⟩

theorem release_done {R : List Block} {w : World} (h : Ok w) {p : Obj × Nat} (g : Good p) (hp : w.live.Perm (own p ++ R)) :
    ∃ w', release w p.1 = some (w', { p.1 with capacity := 0, index := 0, data := 0 }) ∧ Ok w' ∧ w'.live.Perm R := by
  unfold release
  by_cases h0 : p.1.data = 0
  · simp only [own, if_pos h0, List.nil_append] at hp
    refine ⟨w, ?_, h, hp⟩
    simp only [h0, free, if_true, Option.bind_eq_bind, Option.bind_some]; rfl
  · simp only [own, if_neg h0, List.singleton_append] at hp
    obtain ⟨w', e, o, q, _⟩ := Life.free_spec h hp
    simp only at e
    exact ⟨w', by simp only [e, Option.bind_eq_bind, Option.bind_some]; rfl, o, q⟩

theorem init_good {alloc cells : Nat} (h : 1 ≤ cells) (n : Nat) : Good (init alloc cells, n) := ⟨h, Nat.le_refl _, fun _ => rfl, fun e => absurd rfl e⟩

theorem viaTemp_kept {R : List Block} {w : World} (h : Ok w) {p : Obj × Nat} (g : Good p) (hp : w.live.Perm (own p ++ R)) {n m : Nat} (hn : Fits p.1 n) (hm : Fits p.1 m) :
    ∃ w' a' ok, viaTemp w p.1 n m = some (w', a', ok) ∧ Ok w' ∧ (ok = false → a' = p.1 ∧ w'.live.Perm w.live) ∧ (ok = true → a'.index = m) ∧
      ∃ size', Good (a', size') ∧ w'.live.Perm (own (a', size') ++ R) ∧ a'.alloc = p.1.alloc ∧ a'.cells = p.1.cells := by
  unfold viaTemp
  have hp0 : w.live.Perm (own (init p.1.alloc p.1.cells, 0) ++ w.live) := by simp [own, init]
  obtain ⟨w1, t, ok1, e1, ⟨o1, f1, n1, g1, q1, a1, c1⟩, _⟩ := resize_kept h (init_good g.1 0) hp0 (show Fits (init p.1.alloc p.1.cells) n from hn)
  simp only at e1
  simp only [e1, Option.bind_eq_bind, Option.bind_some]
  cases ok1 with
  | false =>
    obtain ⟨_, f⟩ := f1 rfl
    exact ⟨w1, p.1, false, rfl, o1, fun _ => ⟨rfl, by rw [f]⟩, (by intro e; cases e), p.2, g, by rw [f]; exact hp, rfl, rfl⟩
  | true =>
    simp only [Bool.not_true, Bool.false_eq_true, if_false]
    have hq : w1.live.Perm (own p ++ (own (t, n1) ++ R)) :=
      (q1.trans (List.Perm.append_left _ hp)).trans (by rw [← List.append_assoc, ← List.append_assoc]; exact List.Perm.append_right _ List.perm_append_comm)
    obtain ⟨w2, a2, ok2, e2, ⟨o2, f2, n2, g2, q2, b2, c2⟩, i2⟩ := resize_kept o1 g hq hm
    simp only [e2, Option.bind_some]
    have hq2 : w2.live.Perm (own (t, n1) ++ (own (a2, n2) ++ R)) :=
      q2.trans (by rw [← List.append_assoc, ← List.append_assoc]; exact List.Perm.append_right _ List.perm_append_comm)
    obtain ⟨w3, e3, o3, q3⟩ := release_done o2 g1 hq2
    simp only at e3
    simp only [e3, Option.bind_some]
    refine ⟨w3, a2, ok2, rfl, o3, fun e => ⟨(f2 e).1, ?_⟩, i2, n2, g2, q3, b2, c2⟩
    -- the result was not resized: the temporary is gone and everything is as before
    have h2 : w2.live.Perm (own (t, n1) ++ w.live) := by rw [(f2 e).2]; exact q1
    obtain ⟨w4, e4, _, q4⟩ := release_done o2 g1 h2
    simp only at e4
    rw [e3] at e4
    simp only [Option.some.injEq, Prod.mk.injEq, and_true] at e4
    rw [e4]; exact q4

/-- A call on array `i` of the list. -/
theorem on_inv {R : List Block} {s : State} (h : Inv R s) (i : Nat) (f : Obj → Option (World × Obj × Bool))
    (hf : ∀ (p : Obj × Nat) (S : List Block), s.2[i]? = some p.1 → Good p → s.1.live.Perm (own p ++ S) →
      ∃ w' a' ok, f p.1 = some (w', a', ok) ∧ Ok w' ∧ ∃ size', Good (a', size') ∧ w'.live.Perm (own (a', size') ++ S)) :
    ∃ r, on s i f = some r ∧ Inv R r.1 := by
  obtain ⟨ho, sizes, h1, h2, h3⟩ := h
  unfold on
  cases hi : s.2[i]? with
  | none => exact ⟨_, rfl, ho, sizes, h1, h2, h3⟩
  | some a =>
    rw [← h1, List.getElem?_map] at hi
    cases hp : sizes[i]? with
    | none => rw [hp] at hi; cases hi
    | some p =>
      rw [hp] at hi
      simp only [Option.map_some, Option.some.injEq] at hi
      subst hi
      obtain ⟨hlt, hget⟩ := List.getElem?_eq_some_iff.1 hp
      have hsplit : sizes = sizes.take i ++ p :: sizes.drop (i + 1) := by
        rw [← hget]; simp
      have hpm : s.1.live.Perm (own p ++ (blocks (sizes.take i) ++ blocks (sizes.drop (i + 1)) ++ R)) := by
        refine h3.trans ?_
        conv => lhs; rw [hsplit, blocks_append, blocks_cons]
        rw [← List.append_assoc, ← List.append_assoc]
        refine List.Perm.append_right _ ?_
        rw [← List.append_assoc]
        exact List.Perm.append_right _ List.perm_append_comm
      obtain ⟨w', a', ok, e, o', n', g', q'⟩ := hf p _ (by rw [← h1, List.getElem?_map, hp]; rfl) (h2 p (List.mem_of_getElem? hp)) hpm
      simp only [e, Option.map_some]
      refine ⟨_, rfl, o', sizes.set i (a', n'), ?_, ?_, ?_⟩
      · simp only [List.map_set, h1]
      · intro q hq
        rcases List.mem_or_eq_of_mem_set hq with hq | hq
        · exact h2 q hq
        · subst hq; exact g'
      · refine q'.trans ?_
        rw [List.set_eq_take_append_cons_drop, if_pos hlt, blocks_append, blocks_cons]
        rw [← List.append_assoc, ← List.append_assoc]
        refine List.Perm.append_right _ ?_
        rw [← List.append_assoc]
        exact List.Perm.append_right _ List.perm_append_comm

theorem step_inv {R : List Block} {s : State} (h : Inv R s) (op : Op) (hok : op.Ok s) : ∃ r, step s op = some r ∧ Inv R r.1 := by
  have ho := h.1
  cases op with
  | new alloc cells =>
    obtain ⟨_, sizes, h1, h2, h3⟩ := h
    refine ⟨_, rfl, ho, sizes ++ [(init alloc cells, 0)], by simp [h1], ?_, ?_⟩
    · intro p hp
      rcases List.mem_append.1 hp with hp | hp
      · exact h2 p hp
      · rw [List.mem_singleton.1 hp]; exact init_good hok 0
    · rw [blocks_append]; simpa [blocks, init] using h3
  | push i num =>
    refine on_inv h i _ fun p S hi g hp => ?_
    obtain ⟨w', a', ok, e, ⟨k1, _, n', k2, k3, _⟩, _⟩ := push_kept ho g hp (hok p.1 hi)
    exact ⟨w', a', ok, e, k1, n', k2, k3⟩
  | pop i num =>
    refine on_inv h i _ fun p S hi g hp => ⟨_, _, _, rfl, ho, p.2, ?_, ?_⟩
    · unfold pop; split
      · exact g
      · exact ⟨g.1, by have := g.2.1; show p.1.index - num ≤ p.1.capacity; omega, g.2.2.1, g.2.2.2⟩
    · unfold pop; split <;> exact hp
  | resize i num =>
    refine on_inv h i _ fun p S hi g hp => ?_
    obtain ⟨w', a', ok, e, ⟨k1, _, n', k2, k3, _⟩, _⟩ := resize_kept ho g hp (hok p.1 hi)
    exact ⟨w', a', ok, e, k1, n', k2, k3⟩
  | reserve i num =>
    refine on_inv h i _ fun p S hi g hp => ?_
    obtain ⟨w', a', ok, e, ⟨k1, _, n', k2, k3, _⟩, _⟩ := reserve_kept ho g hp (hok p.1 hi)
    exact ⟨w', a', ok, e, k1, n', k2, k3⟩
  | reset i =>
    exact on_inv h i _ fun p S hi g hp => ⟨_, _, _, rfl, ho, p.2, ⟨g.1, Nat.zero_le _, g.2.2.1, g.2.2.2⟩, hp⟩
  | viaTemp i n m =>
    refine on_inv h i _ fun p S hi g hp => ?_
    obtain ⟨w', a', ok, e, k1, _, _, n', k2, k3, _⟩ := viaTemp_kept ho g hp (hok p.1 hi).1 (hok p.1 hi).2
    exact ⟨w', a', ok, e, k1, n', k2, k3⟩
  | release i =>
    refine on_inv h i _ fun p S hi g hp => ?_
    obtain ⟨w', e, k1, k2⟩ := release_done ho g hp
    refine ⟨w', { p.1 with capacity := 0, index := 0, data := 0 }, true, by rw [e]; rfl, k1, 0, ⟨g.1, Nat.le_refl _, fun _ => rfl, fun e => absurd rfl e⟩, ?_⟩
    simpa [own] using k2

theorem run_inv {R : List Block} : ∀ (ops : List Op) {s : State}, Inv R s → OkRun s ops → ∃ s', run s ops = some s' ∧ Inv R s'
  | [], s, h, _ => ⟨s, rfl, h⟩
  | op :: ops, s, h, hok => by
    obtain ⟨r, e, hi⟩ := step_inv h op hok.1
    obtain ⟨s', e', hi'⟩ := run_inv ops hi (hok.2 r e)
    exact ⟨s', by simp only [run, e, Option.bind_eq_bind, Option.bind_some]; exact e', hi'⟩

theorem releaseAll_ok {R : List Block} : ∀ (sizes : List (Obj × Nat)) {w : World}, Ok w → (∀ p ∈ sizes, Good p) → w.live.Perm (blocks sizes ++ R) →
    ∃ w', releaseAll w (sizes.map (·.1)) = some w' ∧ Ok w' ∧ w'.live.Perm R
  | [], w, h, _, hp => ⟨w, rfl, h, hp⟩
  | p :: r, w, h, hg, hp => by
    rw [blocks_cons, List.append_assoc] at hp
    obtain ⟨w1, e, o, q⟩ := release_done h (hg p (by simp)) hp
    obtain ⟨w', e', o', q'⟩ := releaseAll_ok r o (fun x hx => hg x (by simp [hx])) q
    exact ⟨w', by simp only [List.map_cons, releaseAll, e, Option.bind_eq_bind, Option.bind_some]; exact e', o', q'⟩

/-! ## The theorems -/

/-- **C117, partial.** Any number of arrays, matrices and big integers over any allocators, any history of calls on them — temporaries included — and any refusals:
no block is given back twice or to another allocator; afterwards every array with memory holds exactly one live block, of a power of two bytes that has room for the
capacity; nothing else is live but the blocks `R` of others; and releasing all arrays, in the end, leaves exactly those. Missing: requests of more than `2^63` bytes,
see `overflow_violated`. -/
theorem arrays_memory_partial {R : List Block} {w : World} (h : Life.Ok w) (hR : w.live.Perm R) (ops : List Op) (hok : OkRun (w, []) ops) :
    ∃ s', run (w, []) ops = some s' ∧
      (∃ sizes : List (Obj × Nat), sizes.map (·.1) = s'.2 ∧ (∀ p ∈ sizes, Good p) ∧ s'.1.live.Perm (blocks sizes ++ R)) ∧
      ∃ w', releaseAll s'.1 s'.2 = some w' ∧ w'.live.Perm R := by
  obtain ⟨s', e, o, sizes, h1, h2, h3⟩ := run_inv (R := R) ops (s := (w, [])) ⟨h, [], rfl, by simp, by simpa [blocks] using hR⟩ hok
  refine ⟨s', e, ⟨sizes, h1, h2, h3⟩, ?_⟩
  obtain ⟨w', e', _, q⟩ := releaseAll_ok sizes o h2 h3
  exact ⟨w', by rw [← h1]; exact e', q⟩

/-- **C117, partial (refusals).** A push, resize or reservation that reports failure has left the array and all memory as they were; one that reports
success has room for what was asked. The same goes for the operations over a temporary, whose block is gone in either case. -/
theorem refused_harmless_partial {R : List Block} {w : World} (h : Life.Ok w) {p : Obj × Nat} (g : Good p) (hp : w.live.Perm (own p ++ R)) (num n m : Nat) :
    (Fits p.1 (p.1.index + num) → ∃ w' a' ok, push w p.1 num = some (w', a', ok) ∧ (ok = false → a' = p.1 ∧ w'.live = w.live) ∧ (ok = true → a'.index = p.1.index + num ∧ a'.index ≤ a'.capacity)) ∧
    (Fits p.1 num → ∃ w' a' ok, resize w p.1 num = some (w', a', ok) ∧ (ok = false → a' = p.1 ∧ w'.live = w.live) ∧ (ok = true → a'.index = num ∧ num ≤ a'.capacity)) ∧
    (Fits p.1 (p.1.index + num) → ∃ w' a' ok, reserve w p.1 num = some (w', a', ok) ∧ (ok = false → a' = p.1 ∧ w'.live = w.live) ∧ (ok = true → p.1.index + num ≤ a'.capacity)) ∧
    (Fits p.1 n → Fits p.1 m → ∃ w' a' ok, viaTemp w p.1 n m = some (w', a', ok) ∧ (ok = false → a' = p.1 ∧ w'.live.Perm w.live) ∧
      (ok = true → a'.index = m ∧ m ≤ a'.capacity ∧ ∃ size', w'.live.Perm (own (a', size') ++ R))) := by
  refine ⟨fun hf => ?_, fun hf => ?_, fun hf => ?_, fun hn hm => ?_⟩
  · obtain ⟨w', a', ok, e, ⟨_, k, n', k2, _⟩, k3⟩ := push_kept h g hp hf
    exact ⟨w', a', ok, e, k, fun e => ⟨k3 e, k2.2.1⟩⟩
  · obtain ⟨w', a', ok, e, ⟨_, k, n', k2, _⟩, k3⟩ := resize_kept h g hp hf
    exact ⟨w', a', ok, e, k, fun e => ⟨k3 e, by have h1 : a'.index ≤ a'.capacity := k2.2.1; rw [k3 e] at h1; exact h1⟩⟩
  · obtain ⟨w', a', ok, e, ⟨_, k, _⟩, _, k3⟩ := reserve_kept h g hp hf
    exact ⟨w', a', ok, e, k, k3⟩
  · obtain ⟨w', a', ok, e, _, k, k3, n', k2, k4, _⟩ := viaTemp_kept h g hp hn hm
    exact ⟨w', a', ok, e, k, fun e => ⟨k3 e, by have h1 : a'.index ≤ a'.capacity := k2.2.1; rw [k3 e] at h1; exact h1, n', k4⟩⟩

/-! ## How often memory is asked for -/

/-- The calls that change how much an array holds. -/
inductive Call where
  | push (num : Nat)
  | pop (num : Nat)
  | resize (num : Nat)
  | reserve (num : Nat)
  | reset

/-- How many elements the array must have room for. -/
def Call.wants (a : Obj) : Call → Nat
  | .push num | .reserve num => a.index + num
  | .resize num => num
  | .pop _ | .reset => 0

def Call.exec (w : World) (a : Obj) : Call → Option (World × Obj × Bool)
  | .push num => Mem.push w a num
  | .pop num => some (w, Mem.pop a num, decide (num ≤ a.index))
  | .resize num => Mem.resize w a num
  | .reserve num => Mem.reserve w a num
  | .reset => some (w, { a with index := 0 }, true)

def calls (w : World) (a : Obj) : List Call → Option (World × Obj)
  | [] => some (w, a)
  | c :: cs => do
    let r ← c.exec w a
    calls r.1 r.2.1 cs

/-- No call of the history wants more than `M` elements. -/
def AtMost (M : Nat) (w : World) (a : Obj) : List Call → Prop
  | [] => True
  | c :: cs => c.wants a ≤ M ∧ ∀ r, c.exec w a = some r → AtMost M r.1 r.2.1 cs

theorem free_next {w w' : World} {alloc addr : Nat} (h : free w alloc addr = some w') : w'.next = w.next := by
  unfold free at h
  split at h
  · cases h; rfl
  · split at h
    · cases h; rfl
    · cases h

theorem realloc_next {w w' : World} (h : Ok w) {alloc block size d : Nat} (e : realloc w alloc block size = some (w', d)) :
    d = 0 ∧ w'.next = w.next ∨ d ≠ 0 ∧ w'.next = w.next + 1 := by
  have hpos := h.pos
  unfold realloc at e
  split at e
  · simp only [Option.some.injEq] at e
    unfold malloc at e
    split at e
    · cases e; exact Or.inl ⟨rfl, rfl⟩
    · split at e
      · cases e; exact Or.inl ⟨rfl, rfl⟩
      · cases e; exact Or.inr ⟨by omega, rfl⟩
  · split at e
    · cases hf : free w alloc block with
      | none => rw [hf] at e; cases e
      | some w1 => rw [hf] at e; cases e; exact Or.inl ⟨rfl, free_next hf⟩
    · cases hf : free w alloc block with
      | none => rw [hf] at e; cases e
      | some w1 =>
        rw [hf] at e
        have := free_next hf
        simp only [Option.map_some, Option.some.injEq] at e
        split at e
        · cases e; exact Or.inl ⟨rfl, rfl⟩
        · cases e; exact Or.inr ⟨by omega, by show w1.next + 1 = _; omega⟩

/-- A new block is handed out only when the array is full, and is then the least power of two that holds what is wanted. -/
theorem apply_next {w : World} (h : Ok w) {a : Obj} (g1 : 1 ≤ a.cells) {count : Nat} (hf : Fits a count) {w' : World} {a' : Obj} {ok : Bool}
    (e : apply w a count = some (w', a', ok)) :
    w'.next = w.next ∧ a' = a ∨
    w'.next = w.next + 1 ∧ a.capacity < count ∧ a'.data ≠ 0 ∧ ∃ size, LeastPow2 (max 32 count * a.cells) size ∧ a'.capacity = size / a.cells := by
  unfold Fits at hf
  unfold apply at e
  by_cases hc : count ≤ a.capacity
  · rw [if_pos hc] at e; cases e; exact Or.inl ⟨rfl, rfl⟩
  · rw [if_neg hc] at e
    obtain ⟨r, e1, _, e2⟩ := Life.roundup hf
    have hle : 32 * a.cells ≤ max 32 count * a.cells := Nat.mul_le_mul_right _ (by omega)
    have hl := e2 (by omega)
    have he : reqsize a count = some r.toNat := by unfold reqsize; simp only [e1, Option.map_some]
    simp only [he, Option.bind_eq_bind, Option.bind_some] at e
    split at e
    · cases e
    · unfold setSize at e
      cases hr : realloc w a.alloc a.data r.toNat with
      | none => rw [hr] at e; cases e
      | some q =>
        obtain ⟨w1, d⟩ := q
        simp only [hr, Option.bind_eq_bind, Option.bind_some] at e
        rcases realloc_next h hr with ⟨h0, hn⟩ | ⟨h0, hn⟩
        · rw [if_pos h0] at e; cases e; exact Or.inl ⟨hn, rfl⟩
        · rw [if_neg h0, if_neg (by omega)] at e
          cases e
          exact Or.inr ⟨hn, by omega, h0, r.toNat, hl, rfl⟩

theorem LeastPow2.lt {n r : Nat} (h : LeastPow2 n r) (hn : 0 < n) : r < 2 * n := by
  obtain ⟨⟨k, rfl⟩, h1, h2⟩ := h
  cases k with
  | zero => simp only [Nat.pow_zero]; omega
  | succ k =>
    by_cases hk : n ≤ 2 ^ k
    · have := h2 k hk
      rw [Nat.pow_succ] at this
      have : 0 < 2 ^ k := Nat.pos_of_ne_zero (by simp)
      omega
    · rw [Nat.pow_succ]; omega

/-- A power of two above another is at least twice it. -/
theorem pow2_double {j k : Nat} (h : 2 ^ j < 2 ^ k) : 2 * 2 ^ j ≤ 2 ^ k := by
  have : j < k := (Nat.pow_lt_pow_iff_right (by omega)).1 h
  have h1 : 2 ^ (j + 1) ≤ 2 ^ k := Nat.pow_le_pow_right (by omega) this
  rw [Nat.pow_succ] at h1; omega

/-- After `c` blocks: the last one has been doubled `c - 1` times, and is not larger than twice what was ever wanted. -/
def Grown (M c : Nat) (a : Obj) : Prop :=
  1 ≤ a.cells ∧ (c = 0 ∧ a.capacity = 0 ∨ 1 ≤ c ∧ ∃ k, a.capacity = 2 ^ k / a.cells ∧ 2 ^ (c - 1) * (32 * a.cells) ≤ 2 ^ k ∧ 2 ^ k < 2 * (max 32 M * a.cells))

theorem apply_grown {M c : Nat} {w : World} (h : Ok w) {a : Obj} (g : Grown M c a) {count : Nat} (hM : count ≤ M) (hf : max 32 M * a.cells ≤ 2 ^ 63) {w' : World} {a' : Obj} {ok : Bool}
    (e : apply w a count = some (w', a', ok)) (hcells : a'.cells = a.cells) : ∃ c', w'.next = w.next + c' ∧ Grown M (c + c') a' := by
  obtain ⟨g1, g2⟩ := g
  have hfit : Fits a count := Nat.le_trans (Nat.mul_le_mul_right _ (by omega)) hf
  rcases apply_next h g1 hfit e with ⟨h1, rfl⟩ | ⟨h1, h2, h3, size, h4, h5⟩
  · exact ⟨0, h1, g1, g2⟩
  · refine ⟨1, h1, by omega, Or.inr ⟨by omega, ?_⟩⟩
    have hle : 32 * a.cells ≤ max 32 count * a.cells := Nat.mul_le_mul_right _ (by omega)
    have hle2 : count * a.cells ≤ max 32 count * a.cells := Nat.mul_le_mul_right _ (by omega)
    have hle3 : max 32 count * a.cells ≤ max 32 M * a.cells := Nat.mul_le_mul_right _ (by omega)
    have hlt := LeastPow2.lt h4 (by omega)
    obtain ⟨⟨k, rfl⟩, h6, _⟩ := h4
    refine ⟨k, by rw [hcells]; exact h5, ?_, by rw [hcells]; omega⟩
    rw [hcells]
    rcases g2 with ⟨rfl, _⟩ | ⟨hc, j, g3, g4, _⟩
    · simp only [Nat.zero_add, Nat.sub_self, Nat.pow_zero, Nat.one_mul]; omega
    · have hjk : 2 ^ j < 2 ^ k := by
        have : 2 ^ j / a.cells < count := by omega
        have := (Nat.div_lt_iff_lt_mul g1).1 this
        omega
      have hd := pow2_double hjk
      obtain ⟨c0, rfl⟩ : ∃ c0, c = c0 + 1 := ⟨c - 1, by omega⟩
      simp only [Nat.add_sub_cancel] at g4 ⊢
      rw [Nat.pow_succ, Nat.mul_comm (2 ^ c0) 2, Nat.mul_assoc]
      omega

theorem Grown.index {M c : Nat} {a : Obj} (h : Grown M c a) (i : Nat) : Grown M c { a with index := i } := h

theorem exec_grown {R : List Block} {M c : Nat} {w : World} (h : Ok w) {p : Obj × Nat} (gd : Good p) (hp : w.live.Perm (own p ++ R)) (g : Grown M c p.1) (call : Call) (hM : call.wants p.1 ≤ M)
    (hf : max 32 M * p.1.cells ≤ 2 ^ 63) :
    ∃ w' a' ok n' c', call.exec w p.1 = some (w', a', ok) ∧ Ok w' ∧ Good (a', n') ∧ w'.live.Perm (own (a', n') ++ R) ∧ a'.cells = p.1.cells ∧ w'.next = w.next + c' ∧ Grown M (c + c') a' := by
  have hfit : ∀ k, k ≤ M → Fits p.1 k := fun k hk => Nat.le_trans (Nat.mul_le_mul_right _ (by omega)) hf
  cases call with
  | pop num =>
    refine ⟨w, _, _, p.2, 0, rfl, h, ?_, ?_, ?_, rfl, ?_⟩
    · unfold Mem.pop; split
      · exact gd
      · exact ⟨gd.1, by have := gd.2.1; show p.1.index - num ≤ p.1.capacity; omega, gd.2.2.1, gd.2.2.2⟩
    · unfold Mem.pop; split <;> exact hp
    · unfold Mem.pop; split <;> rfl
    · unfold Mem.pop; split <;> exact g
  | reset => exact ⟨w, _, _, p.2, 0, rfl, h, ⟨gd.1, Nat.zero_le _, gd.2.2.1, gd.2.2.2⟩, hp, rfl, rfl, g⟩
  | resize num =>
    obtain ⟨w', a', ok, e, ⟨k1, _, n', k2, k3, _, k5⟩, _⟩ := resize_kept h gd hp (hfit num hM)
    have e0 := e
    unfold Mem.resize at e
    cases ha : apply w p.1 num with
    | none => rw [ha] at e; cases e
    | some r =>
      obtain ⟨w1, a1, ok1⟩ := r
      simp only [ha, Option.bind_eq_bind, Option.bind_some] at e
      cases e
      have hc1 : a1.cells = p.1.cells := by
        cases ok <;> exact k5
      obtain ⟨c', q1, q2⟩ := apply_grown h g hM hf ha hc1
      refine ⟨w', _, ok, n', c', e0, k1, k2, k3, k5, q1, ?_⟩
      cases ok <;> exact q2
  | reserve num =>
    obtain ⟨w', a', ok, e, ⟨k1, _, n', k2, k3, _, k5⟩, _⟩ := reserve_kept h gd hp (hfit _ hM)
    have e0 := e
    unfold Mem.reserve at e
    split at e
    · cases e; exact ⟨w, _, _, n', 0, e0, k1, k2, k3, rfl, rfl, g⟩
    · obtain ⟨c', q1, q2⟩ := apply_grown h g hM hf e k5
      exact ⟨w', a', ok, n', c', e0, k1, k2, k3, k5, q1, q2⟩
  | push num =>
    obtain ⟨w', a', ok, e, ⟨k1, _, n', k2, k3, _, k5⟩, _⟩ := push_kept h gd hp (hfit _ hM)
    have e0 := e
    unfold Mem.push at e
    split at e
    · cases e; exact ⟨w, _, _, n', 0, e0, k1, k2, k3, rfl, rfl, g⟩
    · cases ha : apply w p.1 (p.1.index + num) with
      | none => rw [ha] at e; cases e
      | some r =>
        obtain ⟨w1, a1, ok1⟩ := r
        simp only [ha, Option.bind_eq_bind, Option.bind_some] at e
        cases e
        have hc1 : a1.cells = p.1.cells := by
          cases ok <;> exact k5
        obtain ⟨c', q1, q2⟩ := apply_grown h g hM hf ha hc1
        refine ⟨w', _, ok, n', c', e0, k1, k2, k3, k5, q1, ?_⟩
        cases ok <;> exact q2

theorem calls_grown {R : List Block} {M : Nat} : ∀ (cs : List Call) {c : Nat} {w : World} {p : Obj × Nat}, Ok w → Good p → w.live.Perm (own p ++ R) → Grown M c p.1 →
    max 32 M * p.1.cells ≤ 2 ^ 63 → AtMost M w p.1 cs → ∃ w' a' c', calls w p.1 cs = some (w', a') ∧ w'.next = w.next + c' ∧ Grown M (c + c') a'
  | [], c, w, p, _, _, _, g, _, _ => ⟨w, p.1, 0, rfl, rfl, g⟩
  | call :: cs, c, w, p, h, gd, hp, g, hf, hm => by
    obtain ⟨w1, a1, ok, n1, c1, e, k1, k2, k3, k4, k5, k6⟩ := exec_grown h gd hp g call hm.1 hf
    obtain ⟨w', a', c', e', q1, q2⟩ := calls_grown cs (p := (a1, n1)) k1 k2 k3 k6 (by show max 32 M * a1.cells ≤ _; rw [k4]; exact hf) (hm.2 _ e)
    refine ⟨w', a', c1 + c', by simp only [calls, e, Option.bind_eq_bind, Option.bind_some]; exact e', by omega, ?_⟩
    rw [← Nat.add_assoc]; exact q2

/-- **C117, partial (growth).** However an array is filled and emptied, as long as it is not released: if it never has to hold more than `M` elements, it is given at most
logarithmically many blocks — `b` blocks only if `8 * 2^b` is less than `M` or 32 — and its capacity stays below twice `M` or 64. (New blocks get consecutive addresses, so `next` counts them.) -/
theorem growth_partial {w : World} (h : Life.Ok w) (alloc : Nat) {cells M : Nat} (hc : 1 ≤ cells) (hf : max 32 M * cells ≤ 2 ^ 63) (cs : List Call) (hm : AtMost M w (init alloc cells) cs) :
    ∃ w' a' b, calls w (init alloc cells) cs = some (w', a') ∧ w'.next = w.next + b ∧ (b = 0 ∨ 8 * 2 ^ b < max 32 M) ∧ a'.capacity < 2 * max 32 M := by
  obtain ⟨w', a', b, e, q1, q2, q3⟩ := calls_grown (R := w.live) (c := 0) cs (p := (init alloc cells, 0)) h (init_good hc 0) (by simp [own, init]) ⟨hc, Or.inl ⟨rfl, rfl⟩⟩ hf hm
  rw [Nat.zero_add] at q3
  refine ⟨w', a', b, e, q1, ?_, ?_⟩
  · rcases q3 with ⟨rfl, _⟩ | ⟨hb, k, _, h1, h2⟩
    · exact Or.inl rfl
    · refine Or.inr ?_
      obtain ⟨b0, rfl⟩ : ∃ b0, b = b0 + 1 := ⟨b - 1, by omega⟩
      simp only [Nat.add_sub_cancel] at h1
      have h3 : (2 ^ b0 * 32) * a'.cells < (2 * max 32 M) * a'.cells := by
        rw [Nat.mul_assoc, Nat.mul_assoc]; omega
      have h4 := Nat.lt_of_mul_lt_mul_right h3
      rw [Nat.pow_succ]; omega
  · rcases q3 with ⟨_, h0⟩ | ⟨hb, k, h0, h1, h2⟩
    · omega
    · rw [h0]
      refine (Nat.div_lt_iff_lt_mul q2).2 ?_
      rw [Nat.mul_assoc]; exact h2

/-! ## What goes wrong, and an example -/

/-- A world with the block of somebody else. -/
def exWorld : World := ⟨[⟨9, 3, 100⟩], 4, fun n => n == 3, 0⟩

theorem exWorld_ok : Life.Ok exWorld := ⟨by decide, by decide, by decide⟩

/-- **C117 fails** without the guard: asking an array of 8-byte elements that has a block for `2^61` elements wraps the size to zero, which frees the block, while the array
keeps pointing to it; the call reports that memory is short, and releasing the array gives the block back a second time. -/
theorem overflow_violated : ∃ s, run (exWorld, []) [.new 7 8, .push 0 1] = some s ∧ s.1.live = [⟨7, 4, 256⟩, ⟨9, 3, 100⟩] ∧
    ∃ s', step s (.resize 0 (2 ^ 61)) = some (s', false) ∧ s'.1.live = [⟨9, 3, 100⟩] ∧ s'.2 = [⟨7, 8, 32, 1, 4⟩] ∧ step s' (.release 0) = none := by
  refine ⟨({ live := [⟨7, 4, 256⟩, ⟨9, 3, 100⟩], next := 5, fail := exWorld.fail, calls := 1 }, [⟨7, 8, 32, 1, 4⟩]), rfl, rfl,
    ({ live := [⟨9, 3, 100⟩], next := 5, fail := exWorld.fail, calls := 1 }, [⟨7, 8, 32, 1, 4⟩]), ?_, rfl, rfl, rfl⟩
  rfl

/-- Two arrays of two allocators; the third growth of the second is refused, the product over a temporary goes through. -/
def exOps : List Op := [.new 7 8, .new 5 16, .push 0 20, .push 1 33, .push 0 20, .push 1 100, .viaTemp 1 40 40, .pop 0 5, .reserve 0 1, .resize 1 64]

theorem ex_run : ∃ s, run (exWorld, []) exOps = some s ∧ s.2 = [⟨7, 8, 64, 35, 6⟩, ⟨5, 16, 64, 64, 5⟩] ∧ s.1.live = [⟨7, 6, 512⟩, ⟨5, 5, 1024⟩, ⟨9, 3, 100⟩] ∧
    (releaseAll s.1 s.2).map (·.live) = some [⟨9, 3, 100⟩] :=
  ⟨({ live := [⟨7, 6, 512⟩, ⟨5, 5, 1024⟩, ⟨9, 3, 100⟩], next := 8, fail := exWorld.fail, calls := 5 }, [⟨7, 8, 64, 35, 6⟩, ⟨5, 16, 64, 64, 5⟩]), rfl, rfl, rfl, rfl⟩

/-- The guard of a history as a computation. -/
def okRun (s : State) : List Op → Bool
  | [] => true
  | op :: ops =>
    (match op with
      | .new _ cells => decide (1 ≤ cells)
      | .push i num | .reserve i num => (s.2[i]?).all fun a => decide (max 32 (a.index + num) * a.cells ≤ 2 ^ 63)
      | .resize i num => (s.2[i]?).all fun a => decide (max 32 num * a.cells ≤ 2 ^ 63)
      | .viaTemp i n m => (s.2[i]?).all fun a => decide (max 32 n * a.cells ≤ 2 ^ 63) && decide (max 32 m * a.cells ≤ 2 ^ 63)
      | .pop _ _ | .reset _ | .release _ => true) &&
    (step s op).all fun r => okRun r.1 ops

theorem okRun_sound : ∀ (ops : List Op) (s : State), okRun s ops = true → OkRun s ops
  | [], _, _ => trivial
  | op :: ops, s, h => by
    unfold okRun at h
    rw [Bool.and_eq_true] at h
    refine ⟨?_, fun r hr => okRun_sound ops r.1 ?_⟩
    · have h1 := h.1
      cases op with
      | new a c => exact (decide_eq_true_iff.1 h1 :)
      | push i num => intro a ha; simp only [ha, Option.all_some] at h1; exact (decide_eq_true_iff.1 h1 :)
      | reserve i num => intro a ha; simp only [ha, Option.all_some] at h1; exact (decide_eq_true_iff.1 h1 :)
      | resize i num => intro a ha; simp only [ha, Option.all_some] at h1; exact (decide_eq_true_iff.1 h1 :)
      | viaTemp i n m =>
        intro a ha
        simp only [ha, Option.all_some, Bool.and_eq_true] at h1
        exact ⟨(decide_eq_true_iff.1 h1.1 :), (decide_eq_true_iff.1 h1.2 :)⟩
      | pop _ _ => trivial
      | reset _ => trivial
      | release _ => trivial
    · have h2 := h.2
      simpa only [hr, Option.all_some] using h2

example : OkRun (exWorld, []) exOps := okRun_sound _ _ (by decide +kernel)
example : ∃ s', run (exWorld, []) exOps = some s' ∧ ∃ w', releaseAll s'.1 s'.2 = some w' ∧ w'.live.Perm exWorld.live := by
  obtain ⟨s', e, _, h⟩ := arrays_memory_partial exWorld_ok (List.Perm.refl _) exOps (okRun_sound _ _ (by decide +kernel))
  exact ⟨s', e, h⟩

/-- Ninety pushes of one element need two more blocks after the first. -/
example : ((calls ⟨[], 1, fun _ => false, 0⟩ (init 7 8) ((List.replicate 90 (Call.push 1)))).map fun r => (r.1.next, r.1.live, r.2.capacity)) =
    some (4, [⟨7, 3, 1024⟩], 128) := by decide +kernel

end Bfdev.Array.Mem

import Verif.Front.Model
/-!
C97: the allocator front end: every block goes back to the heap it came from, whatever the history.
-/
namespace Bfdev.Front

/-! ## Specification -/

/-- The operations an allocator stands for: no allocator is the default one, no table the default table. -/
def tableOf (env : Env) (a : Option Alloc) : Table := ((a.getD env.alloc).ops).getD env.ops
/-- The operations are all given or all left out. -/
def Whole (env : Env) (a : Option Alloc) : Prop :=
  (tableOf env a).zalloc = (tableOf env a).alloc ∧ (tableOf env a).realloc = (tableOf env a).alloc ∧ (tableOf env a).free = (tableOf env a).alloc
/-- The heap behind it. -/
def home (env : Env) (a : Option Alloc) : Option Nat := if (tableOf env a).alloc then some (a.getD env.alloc).pdata else none

/-- Blocks have different addresses, none of them NULL. -/
def Ok (w : World) : Prop := (w.live.map (·.addr)).Nodup ∧ (∀ b ∈ w.live, b.addr ≠ 0 ∧ b.addr < w.next) ∧ w.next ≠ 0

/-- A new block of `size` bytes on heap `h`, or none because the heap refused or nothing was asked for. -/
def New (h : Option Nat) (size : Nat) (zero : Bool) (L : List Block) (ret : Nat) (L' : List Block) : Prop :=
  (ret = 0 ∧ L' = L) ∨
  (size ≠ 0 ∧ ret ≠ 0 ∧ (∀ b ∈ L, b.addr ≠ ret) ∧ ∃ data, data.length = size ∧ (zero = true → ∀ x ∈ data, x = 0) ∧ L' = ⟨h, ret, data⟩ :: L)

/-- A block of heap `h` is no longer there; all others are untouched. -/
def Gone (h : Option Nat) (addr : Nat) (L L' : List Block) : Prop := ∃ L1 data L2, L = L1 ++ ⟨h, addr, data⟩ :: L2 ∧ L' = L1 ++ L2

/-- A block of heap `h` has been replaced by one of another size that begins alike, or nothing happened. -/
def Resized (h : Option Nat) (addr size : Nat) (L : List Block) (ret : Nat) (L' : List Block) : Prop :=
  ∃ L1 old L2, L = L1 ++ ⟨h, addr, old⟩ :: L2 ∧
    ((ret = 0 ∧ L' = L) ∨
     (ret ≠ 0 ∧ (∀ b ∈ L1 ++ L2, b.addr ≠ ret) ∧ ∃ data, data.length = size ∧ (∀ i, i < old.length → i < size → data[i]? = old[i]?) ∧ L' = ⟨h, ret, data⟩ :: (L1 ++ L2)))

/-- What a call is to do to the blocks. -/
def Says (hm : Nat → Option Nat) (L : List Block) (ret : Nat) (L' : List Block) : Call → Prop
  | .malloc al size => New (hm al) size false L ret L'
  | .zalloc al size => New (hm al) size true L ret L'
  | .mallocArray al nr size => New (hm al) (nr * size) false L ret L'
  | .zallocArray al nr size => New (hm al) (nr * size) true L ret L'
  | .free al block => if block = 0 then L' = L else Gone (hm al) block L L'
  | .realloc al block size =>
    if block = 0 then New (hm al) size false L ret L' else if size = 0 then ret = 0 ∧ Gone (hm al) block L L' else Resized (hm al) block size L ret L'
  | .reallocArray al block nr size =>
    if block = 0 then New (hm al) (nr * size) false L ret L' else if nr * size = 0 then ret = 0 ∧ Gone (hm al) block L L'
    else Resized (hm al) block (nr * size) L ret L'

/-- Whom a call is about and which block it is given, if any. -/
def Call.al : Call → Nat
  | .malloc al _ | .zalloc al _ | .realloc al _ _ | .free al _ | .mallocArray al _ _ | .zallocArray al _ _ | .reallocArray al _ _ _ => al
def Call.block : Call → Nat
  | .realloc _ b _ | .free _ b | .reallocArray _ b _ _ => b
  | _ => 0

/-- A proper call: NULL or a block got from that allocator, and a size that exists. -/
def Legal (hm : Nat → Option Nat) (w : World) (c : Call) : Prop :=
  (c.block = 0 ∨ ∃ b ∈ w.live, b.addr = c.block ∧ b.owner = hm c.al) ∧
  match c with
  | .mallocArray _ nr size | .zallocArray _ nr size | .reallocArray _ _ nr size => nr * size < 2 ^ 64
  | _ => True

/-! ## Proofs -/

theorem ops_eq (env : Env) (a : Option Alloc) : allocOps env a = (tableOf env a, (a.getD env.alloc).pdata) := by
  unfold allocOps tableOf
  cases a with
  | none => simp only [Option.getD_none]; cases env.alloc.ops <;> rfl
  | some a => simp only [Option.getD_some]; cases a.ops <;> rfl

theorem heap_home (env : Env) (a : Option Alloc) {g : Bool} (h : g = (tableOf env a).alloc) :
    heapOf g (a.getD env.alloc).pdata = home env a := by
  subst h
  unfold heapOf home
  cases (tableOf env a).alloc <;> rfl

theorem heapAlloc_spec {w : World} (h : Ok w) (owner : Option Nat) {size : Nat} (zero : Bool) (hs : size ≠ 0) :
    Ok (heapAlloc w owner size zero).1 ∧ New owner size zero w.live (heapAlloc w owner size zero).2 (heapAlloc w owner size zero).1.live := by
  obtain ⟨h1, h2, h3⟩ := h
  unfold heapAlloc
  by_cases hf : w.fail w.calls = true
  · rw [if_pos hf]
    exact ⟨⟨h1, h2, h3⟩, Or.inl ⟨rfl, rfl⟩⟩
  · rw [if_neg hf]
    refine ⟨⟨?_, ?_, ?_⟩, Or.inr ⟨hs, h3, fun b hb => Nat.ne_of_lt (h2 b hb).2, _, ?_, ?_, rfl⟩⟩
    · show (w.next :: w.live.map (·.addr)).Nodup
      rw [List.nodup_cons]
      refine ⟨?_, h1⟩
      intro hm
      obtain ⟨b, hb, e⟩ := List.mem_map.1 hm
      exact absurd e (Nat.ne_of_lt (h2 b hb).2)
    · intro b hb
      show b.addr ≠ 0 ∧ b.addr < w.next + 1
      rcases List.mem_cons.1 hb with rfl | hb
      · exact ⟨h3, Nat.lt_succ_self _⟩
      · have := h2 b hb; omega
    · show w.next + 1 ≠ 0
      omega
    · cases zero <;> simp
    · intro hz x hx
      subst hz
      simpa using (List.mem_replicate.1 hx).2

theorem filter_split {L1 L2 : List Block} {b : Block} (h : ((L1 ++ b :: L2).map (·.addr)).Nodup) :
    (L1 ++ b :: L2).filter (fun x => !has b.owner b.addr x) = L1 ++ L2 := by
  rw [List.map_append, List.map_cons, List.nodup_append] at h
  obtain ⟨-, h2, h3⟩ := h
  rw [List.nodup_cons] at h2
  have e1 : L1.filter (fun x => !has b.owner b.addr x) = L1 := by
    rw [List.filter_eq_self]
    intro x hx
    have : x.addr ≠ b.addr := h3 _ (List.mem_map_of_mem hx) _ List.mem_cons_self
    simp [has, this]
  have e2 : L2.filter (fun x => !has b.owner b.addr x) = L2 := by
    rw [List.filter_eq_self]
    intro x hx
    have : x.addr ≠ b.addr := fun e => h2.1 (e ▸ List.mem_map_of_mem hx)
    simp [has, this]
  rw [List.filter_append, List.filter_cons, e1, e2]
  simp [has]

theorem find_split {L1 L2 : List Block} {b : Block} (h : ((L1 ++ b :: L2).map (·.addr)).Nodup) :
    (L1 ++ b :: L2).find? (has b.owner b.addr) = some b := by
  rw [List.map_append, List.map_cons, List.nodup_append] at h
  obtain ⟨-, -, h3⟩ := h
  rw [List.find?_append]
  have : L1.find? (has b.owner b.addr) = none := by
    rw [List.find?_eq_none]
    intro x hx
    have : x.addr ≠ b.addr := h3 _ (List.mem_map_of_mem hx) _ List.mem_cons_self
    simp [has, this]
  rw [this, List.find?_cons]
  simp [has]

theorem ok_remove {w : World} {L1 L2 : List Block} {b : Block} (h : Ok w) (e : w.live = L1 ++ b :: L2) :
    ((L1 ++ L2).map (·.addr)).Nodup ∧ (∀ x ∈ L1 ++ L2, x.addr ≠ 0 ∧ x.addr < w.next ∧ x.addr ≠ b.addr) := by
  obtain ⟨h1, h2, -⟩ := h
  rw [e] at h1 h2
  rw [List.map_append, List.map_cons, List.nodup_append, List.nodup_cons] at h1
  obtain ⟨a1, ⟨a2, a3⟩, a4⟩ := h1
  constructor
  · rw [List.map_append, List.nodup_append]
    exact ⟨a1, a3, fun x hx y hy => a4 x hx y (List.mem_cons_of_mem _ hy)⟩
  · intro x hx
    rcases List.mem_append.1 hx with hx | hx
    · have := h2 x (List.mem_append_left _ hx)
      exact ⟨this.1, this.2, a4 _ (List.mem_map_of_mem hx) _ List.mem_cons_self⟩
    · have := h2 x (List.mem_append_right _ (List.mem_cons_of_mem _ hx))
      exact ⟨this.1, this.2, fun e => a2 (e ▸ List.mem_map_of_mem hx)⟩

theorem heapFree_spec {w : World} (h : Ok w) {b : Block} (hb : b ∈ w.live) :
    ∃ w', heapFree w b.owner b.addr = some w' ∧ Ok w' ∧ Gone b.owner b.addr w.live w'.live := by
  obtain ⟨L1, L2, e⟩ := List.append_of_mem hb
  have hr := ok_remove h e
  have hf := filter_split (e ▸ h.1)
  refine ⟨{ w with live := L1 ++ L2 }, ?_, ⟨hr.1, fun x hx => ⟨(hr.2 x hx).1, (hr.2 x hx).2.1⟩, h.2.2⟩, L1, b.data, L2, e, rfl⟩
  unfold heapFree
  rw [if_pos (by rw [List.any_eq_true]; exact ⟨b, hb, by simp [has]⟩), e, hf]

theorem heapRealloc_spec {w : World} (h : Ok w) {b : Block} (hb : b ∈ w.live) (size : Nat) :
    ∃ w' ret, heapRealloc w b.owner b.addr size = some (w', ret) ∧ Ok w' ∧ Resized b.owner b.addr size w.live ret w'.live := by
  obtain ⟨L1, L2, e⟩ := List.append_of_mem hb
  have hr := ok_remove h e
  have hf := filter_split (e ▸ h.1)
  have hi := find_split (e ▸ h.1)
  have hb0 := h.2.1 b hb
  unfold heapRealloc
  rw [e, hi]
  simp only
  by_cases hff : w.fail w.calls = true
  · rw [if_pos hff]
    exact ⟨_, _, rfl, ⟨e ▸ h.1, e ▸ h.2.1, h.2.2⟩, L1, b.data, L2, rfl, Or.inl ⟨rfl, rfl⟩⟩
  · rw [if_neg hff, hf]
    obtain ⟨place, hp⟩ : ∃ place, place = if w.stay w.calls then b.addr else w.next := ⟨_, rfl⟩
    have hpl : place ≠ 0 ∧ place < w.next + 1 ∧ ∀ x ∈ L1 ++ L2, x.addr ≠ place := by
      subst hp
      split
      · exact ⟨hb0.1, by omega, fun x hx => (hr.2 x hx).2.2⟩
      · exact ⟨h.2.2, by omega, fun x hx => Nat.ne_of_lt (hr.2 x hx).2.1⟩
    rw [← hp]
    refine ⟨_, _, rfl, ⟨?_, ?_, ?_⟩, L1, b.data, L2, rfl, Or.inr ⟨hpl.1, hpl.2.2, _, ?_, ?_, rfl⟩⟩
    · show (place :: (L1 ++ L2).map (·.addr)).Nodup
      rw [List.nodup_cons]
      refine ⟨fun hm => ?_, hr.1⟩
      obtain ⟨x, hx, ex⟩ := List.mem_map.1 hm
      exact hpl.2.2 x hx ex
    · intro x hx
      show x.addr ≠ 0 ∧ x.addr < w.next + 1
      rcases List.mem_cons.1 hx with rfl | hx
      · exact ⟨hpl.1, hpl.2.1⟩
      · have := hr.2 x hx; omega
    · show w.next + 1 ≠ 0
      omega
    · simp; omega
    · intro i h1 h2
      rw [List.getElem?_take_of_lt h2, List.append_assoc, List.getElem?_append_left h1]

theorem malloc_spec {env : Env} {a : Option Alloc} {w : World} (h : Ok w) (size : Nat) :
    Ok (malloc env a size w).1 ∧ New (home env a) size false w.live (malloc env a size w).2 (malloc env a size w).1.live := by
  unfold malloc
  by_cases hs : size = 0
  · rw [if_pos hs]; exact ⟨h, Or.inl ⟨rfl, rfl⟩⟩
  · rw [if_neg hs, ops_eq]
    simp only
    rw [heap_home env a rfl]
    exact heapAlloc_spec h _ false hs

theorem zalloc_spec {env : Env} {a : Option Alloc} {w : World} (h : Ok w) (hw : Whole env a) (size : Nat) :
    Ok (zalloc env a size w).1 ∧ New (home env a) size true w.live (zalloc env a size w).2 (zalloc env a size w).1.live := by
  unfold zalloc
  by_cases hs : size = 0
  · rw [if_pos hs]; exact ⟨h, Or.inl ⟨rfl, rfl⟩⟩
  · rw [if_neg hs, ops_eq]
    simp only
    rw [heap_home env a hw.1]
    exact heapAlloc_spec h _ true hs

theorem free_spec {env : Env} {a : Option Alloc} {w : World} (h : Ok w) (hw : Whole env a) {block : Nat} (h0 : block ≠ 0)
    (hb : ∃ b ∈ w.live, b.addr = block ∧ b.owner = home env a) : ∃ w', free env a block w = some w' ∧ Ok w' ∧ Gone (home env a) block w.live w'.live := by
  obtain ⟨b, hb, e1, e2⟩ := hb
  unfold free
  rw [if_neg h0, ops_eq]
  simp only
  rw [heap_home env a hw.2.2, ← e1, ← e2]
  exact heapFree_spec h hb

theorem realloc_spec {env : Env} {a : Option Alloc} {w : World} (h : Ok w) (hw : Whole env a) (block size : Nat)
    (hb : block = 0 ∨ ∃ b ∈ w.live, b.addr = block ∧ b.owner = home env a) :
    ∃ w' ret, realloc env a block size w = some (w', ret) ∧ Ok w' ∧
      (if block = 0 then New (home env a) size false w.live ret w'.live
       else if size = 0 then ret = 0 ∧ Gone (home env a) block w.live w'.live else Resized (home env a) block size w.live ret w'.live) := by
  unfold realloc
  by_cases h0 : block = 0
  · rw [if_pos h0]
    have := malloc_spec (env := env) (a := a) h size
    refine ⟨_, _, rfl, this.1, ?_⟩
    rw [if_pos h0]; exact this.2
  · have hb := hb.resolve_left h0
    simp only [if_neg h0]
    by_cases hs : size = 0
    · simp only [if_pos hs]
      obtain ⟨w', e, h1, h2⟩ := free_spec h hw h0 hb
      rw [e]
      exact ⟨w', 0, rfl, h1, rfl, h2⟩
    · simp only [if_neg hs]
      obtain ⟨b, hb, e1, e2⟩ := hb
      rw [ops_eq]
      simp only
      rw [heap_home env a hw.2.1, ← e1, ← e2]
      exact heapRealloc_spec h hb size

/-! ## Theorems -/

/-- The states clients that only make proper calls can bring about. -/
inductive Reach (env : Env) (als : Nat → Option Alloc) (w0 : World) : World → Prop
  | start : Reach env als w0 w0
  | call {w w' : World} {c : Call} {ret : Nat} : Reach env als w0 w → Legal (fun al => home env (als al)) w c → exec env als w c = some (w', ret) →
      Reach env als w0 w'

theorem exec_spec {env : Env} {als : Nat → Option Alloc} {w : World} {c : Call} (h : Ok w) (hw : ∀ al, Whole env (als al))
    (hl : Legal (fun al => home env (als al)) w c) :
    ∃ w' ret, exec env als w c = some (w', ret) ∧ Ok w' ∧ Says (fun al => home env (als al)) w.live ret w'.live c := by
  obtain ⟨hl1, hl2⟩ := hl
  cases c with
  | malloc al size => exact ⟨_, _, rfl, malloc_spec h size⟩
  | zalloc al size => exact ⟨_, _, rfl, zalloc_spec h (hw al) size⟩
  | mallocArray al nr size =>
    have hlt : nr * size < 2 ^ 64 := hl2
    have e : size * nr % 2 ^ 64 = nr * size := by rw [Nat.mul_comm, Nat.mod_eq_of_lt hlt]
    refine ⟨(mallocArray env (als al) nr size w).1, (mallocArray env (als al) nr size w).2, rfl, ?_⟩
    unfold mallocArray
    rw [e]
    exact malloc_spec h _
  | zallocArray al nr size =>
    have hlt : nr * size < 2 ^ 64 := hl2
    have e : size * nr % 2 ^ 64 = nr * size := by rw [Nat.mul_comm, Nat.mod_eq_of_lt hlt]
    refine ⟨(zallocArray env (als al) nr size w).1, (zallocArray env (als al) nr size w).2, rfl, ?_⟩
    unfold zallocArray
    rw [e]
    exact zalloc_spec h (hw al) _
  | free al block =>
    by_cases h0 : block = 0
    · refine ⟨w, 0, ?_, h, ?_⟩
      · subst h0; rfl
      · simp only [Says, if_pos h0]
    · obtain ⟨w', e, h1, h2⟩ := free_spec h (hw al) h0 (hl1.resolve_left h0)
      refine ⟨w', 0, ?_, h1, ?_⟩
      · simp only [exec, e]; rfl
      · simp only [Says, if_neg h0]; exact h2
  | realloc al block size => exact realloc_spec h (hw al) block size hl1
  | reallocArray al block nr size =>
    have hlt : nr * size < 2 ^ 64 := hl2
    have e : size * nr % 2 ^ 64 = nr * size := by rw [Nat.mul_comm, Nat.mod_eq_of_lt hlt]
    simp only [exec, reallocArray, Says]
    rw [e]
    exact realloc_spec h (hw al) block (nr * size) hl1

/-- **C97**: whatever the history of proper calls to any number of allocators whose tables are complete or empty: every further proper call does what it is to do
to the block it names and leaves all others alone; no heap is ever handed a block of another. What is missing: tables with gaps, and products that
do not fit a `size_t`. -/
theorem front_partial {env : Env} {als : Nat → Option Alloc} {w0 w : World} (h0 : Ok w0) (hw : ∀ al, Whole env (als al)) (hr : Reach env als w0 w) :
    Ok w ∧ ∀ c, Legal (fun al => home env (als al)) w c →
      ∃ w' ret, exec env als w c = some (w', ret) ∧ Says (fun al => home env (als al)) w.live ret w'.live c := by
  have hok : Ok w := by
    induction hr with
    | start => exact h0
    | call _ hl he ih =>
      obtain ⟨w2, r2, e2, h2, -⟩ := exec_spec ih hw hl
      rw [he] at e2
      cases e2
      exact h2
  refine ⟨hok, fun c hl => ?_⟩
  obtain ⟨w', ret, e, -, h⟩ := exec_spec hok hw hl
  exact ⟨w', ret, e, h⟩

/-- A call for nothing and a call with NULL ask no heap at all. -/
theorem nothing_asked (env : Env) (a : Option Alloc) (w : World) :
    malloc env a 0 w = (w, 0) ∧ zalloc env a 0 w = (w, 0) ∧ free env a 0 w = some w ∧ realloc env a 0 0 w = some (w, 0) := by
  refine ⟨rfl, rfl, rfl, rfl⟩

def world0 : World := ⟨[], 1, fun _ => false, fun _ => [], fun n => n == 2, 0⟩

/-- Disagreement: with a table that gives `alloc` and `free` only, a block that was cleared comes from the C library and is handed to the user's `free`. -/
theorem front_violated : ∃ (a : Alloc) (w : World), zalloc env0 (some a) 4 world0 = (w, 1) ∧ free env0 (some a) 1 w = none ∧
    ¬Whole env0 (some a) := by
  refine ⟨⟨some ⟨true, false, false, true⟩, 7⟩, (zalloc env0 (some ⟨some ⟨true, false, false, true⟩, 7⟩) 4 world0).1, rfl, by decide +kernel, ?_⟩
  intro h
  exact absurd h.1 (by decide)

/-- Disagreement: an array of more bytes than there are is granted with two. -/
theorem front_array_violated : ∃ (nr size : Nat), nr < 2 ^ 64 ∧ size < 2 ^ 64 ∧
    (mallocArray env0 none nr size world0).1.live = [⟨none, 1, [0, 0]⟩] ∧ (mallocArray env0 none nr size world0).2 = 1 ∧ nr * size = 2 ^ 64 + 2 := by
  refine ⟨2 ^ 63 + 1, 2, by decide, by decide, by decide +kernel, by decide +kernel, by decide⟩

/-- A history over two allocators: the second with its own heap, the first that of the C library. -/
def exAls (n : Nat) : Option Alloc := if n = 0 then none else some ⟨some ⟨true, true, true, true⟩, n⟩

example : Ok world0 ∧ ∀ al, Whole env0 (exAls al) := by
  refine ⟨⟨by simp [world0], by simp [world0], by simp [world0]⟩, fun al => ?_⟩
  unfold exAls
  split
  · exact ⟨rfl, rfl, rfl⟩
  · exact ⟨rfl, rfl, rfl⟩

example : (do
    let (w, a) ← exec env0 exAls world0 (.malloc 0 3)
    let (w, b) ← exec env0 exAls w (.zallocArray 5 2 2)
    let (w, c) ← exec env0 exAls w (.realloc 5 b 6)
    let (w, d) ← exec env0 exAls w (.realloc 0 a 2)
    let (w, _) ← exec env0 exAls w (.free 5 c)
    return (b, c, d, w.live)) = some (2, 2, 4, [⟨none, 4, [0, 0]⟩]) := by decide +kernel

end Bfdev.Front

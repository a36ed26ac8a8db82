import Verif.Memalloc.Props
/-!
The check of `BFDEV_DEBUG_MEMALLOC`, which the default configuration turns on (CMakeLists.txt:65). It looks at whether the `free` field of the header is a list of
its own, so the pool is extended by this: `alone a` says that `node->free` of the header at `a` points to itself. What the list operations make of it (`Dlist`):
a chunk on the free list is linked to the head of that list, so it is not alone; `bfdev_list_del_init` leaves it alone; `bfdev_list_del` leaves the poison addresses,
which is not alone. The report of a failed check is not modelled.
-/
namespace Bfdev.Memalloc

abbrev Alone := Nat → Bool

/-- Chunks that are on the free list, or were taken from it by `bfdev_list_del`, are not alone. -/
def listed (s s' : Pool) (al : Alone) : Alone := fun x => if x ∈ s.free ∨ x ∈ s'.free then false else al x

/-- `memalloc_check`, memalloc.c:47-63: whether the header in front of the block is accepted. -/
def check (al : Alone) (p : Nat) : Bool := if !al (p - hdr) then false else true

/-- `bfdev_memalloc_alloc`, memalloc.c:126-165; the chunk granted leaves the free list by `bfdev_list_del_init`. -/
def allocD (find : Find) (s : Pool) (al : Alone) (n : Nat) : Option ((Pool × Alone) × Nat) :=
  (alloc find s n).map fun r => ((r.1, if r.2 = 0 then al else fun x => if x = r.2 - hdr then true else listed s r.1 al x), r.2)

/-- `bfdev_memalloc_free`, memalloc.c:233-274, with its check; the chunk is put on the free list, and perhaps taken from it again by `bfdev_list_del`. -/
def freeD (s : Pool) (al : Alone) (p : Nat) : Option (Pool × Alone) :=
  if !check al p then some (s, al) else (free s p).map fun s' => (s', fun x => if x = p - hdr then false else listed s s' al x)

/-- Moving a block, memalloc.c:191-200: the old one is freed with the check. -/
def moveD (find : Find) (s : Pool) (al : Alone) (p origin n : Nat) : Option ((Pool × Alone) × Nat) :=
  (allocD find s al n).bind fun r =>
    if r.2 = 0 then some (r.1, 0)
    else (r.1.1.copy r.2 p origin).bind fun s => (freeD s r.1.2 p).map fun s => (s, r.2)

/-- `bfdev_memalloc_realloc`, memalloc.c:167-231, with its check. -/
def reallocD (find : Find) (s : Pool) (al : Alone) (p n : Nat) : Option ((Pool × Alone) × Nat) :=
  if !check al p then some ((s, al), 0)
  else
    let n := align n
    if n > s.avail then some ((s, al), 0)
    else
      let origin := size (s.usize (p - hdr))
      if origin ≥ n then some ((s, al), p)
      else match next (p - hdr) s.block with
        | none => moveD find s al p origin n
        | some b =>
          if used (s.usize b) = true ∨ hdr + size (s.usize b) < sub n origin then moveD find s al p origin n
          else (expand s p b origin n).map fun r => ((r.1, listed s r.1 al), r.2)

/-- An operation on the pool and on what the user holds, as the default configuration compiles it. -/
def stepD (find : Find) (s : Pool) (al : Alone) (L : Live) : Op → Option ((Pool × Alone) × Live)
  | .alloc n => (allocD find s al n).map fun r => (r.1, if r.2 = 0 then L else (r.2, n) :: L)
  | .free p => (freeD s al p).map fun s => (s, L.filter fun x => x.1 ≠ p)
  | .realloc p n => (reallocD find s al p n).map fun r => (r.1, if r.2 = 0 then L else (r.2, n) :: L.filter fun x => x.1 ≠ p)
  | .write p i v => some (({ s with mem := fun x => if x = p + i then some v else s.mem x }, al), L)

/-- The pools and blocks that histories lead to. Only the headers of chunks are kept from one call to the next: what the user writes into blocks may look like a header. -/
inductive ReachD (find : Find) (mem : Nat → Option (BitVec 8)) (base total : Nat) : Pool → Alone → Live → Prop
  | new {al : Alone} : al base = false → ReachD find mem base total (init mem base total) al []
  | step {s al L op s' al' al'' L'} : ReachD find mem base total s al L → ok L op → stepD find s al L op = some ((s', al'), L') → (∀ a ∈ s'.block, al'' a = al' a) →
      ReachD find mem base total s' al'' L'

section
variable {find : Find} {mem : Nat → Option (BitVec 8)} {base total : Nat} {s : Pool} {al : Alone} {L : Live}

theorem Inv.chunk (h : Inv base total s L) {x : Nat × Nat} (hx : x ∈ L) : 40 ≤ x.1 ∧ x.1 - hdr ∈ s.block ∧ x.1 - hdr ∉ s.free := by
  obtain ⟨C, hG, hR⟩ := h
  obtain ⟨c, c1, c2, -⟩ := hR.mem hx
  obtain ⟨c3, c4⟩ := U_mem.1 c1
  have e : x.1 - hdr = c.addr := by omega
  refine ⟨by omega, ?_, ?_⟩
  · rw [e, hG.1.blk]; exact List.mem_map.2 ⟨c, c3, rfl⟩
  · rw [e]
    intro hf
    obtain ⟨d, d1, d2, d3⟩ := (hG.1.f _).1 hf
    have hcd : c = d := by
      have hp := lay_pairwise hG.1.lay
      obtain ⟨C1, C2, rfl⟩ := List.append_of_mem c3
      rcases List.mem_append.1 d1 with h | h
      · have := (List.pairwise_append.1 hp).2.2 d h c (by simp)
        omega
      · rcases List.mem_cons.1 h with h | h
        · exact h.symm
        · have := (List.pairwise_cons.1 (List.pairwise_append.1 hp).2.1).1 d h
          omega
    rw [hcd, d3] at c4
    cases c4

/-- What is known about the flags: the chunks of the blocks held are alone. -/
def Flags (al : Alone) (L : Live) : Prop := ∀ x ∈ L, al (x.1 - hdr) = true

theorem check_of {p : Nat} (h : al (p - hdr) = true) : check al p = true := by simp [check, h]

theorem copy_free {t t' : Pool} {d p n : Nat} (h : t.copy d p n = some t') : t'.free = t.free ∧ t'.block = t.block := by
  unfold Pool.copy at h
  split at h
  · cases h; exact ⟨rfl, rfl⟩
  · cases h

/-- What an operation with the check does, if the flags of the blocks held are right: what it does without, and the flags of the blocks held stay right. -/
theorem alloc_flags (hf : Fits find) (hi : Inv base total s L) (hfl : Flags al L) {n : Nat} (hn : n + 31 < 2 ^ 64) :
    ∃ s' al' q, allocD find s al n = some ((s', al'), q) ∧ alloc find s n = some (s', q) ∧ Inv base total s' (if q = 0 then L else (q, n) :: L) ∧
      Flags al' (if q = 0 then L else (q, n) :: L) := by
  obtain ⟨s1, L1, e1, i1, k1⟩ := step_ok hf hi (op := .alloc n) hn
  simp only [step] at e1
  obtain ⟨⟨sa, q⟩, ea, e2⟩ := Option.map_eq_some_iff.1 e1
  simp only [Prod.mk.injEq] at e2
  obtain ⟨rfl, rfl⟩ := e2
  unfold allocD
  rw [ea]
  refine ⟨_, _, _, rfl, rfl, i1, ?_⟩
  dsimp only
  by_cases hq : q = 0
  · rw [if_pos hq, if_pos hq]; exact hfl
  · rw [if_neg hq] at i1
    rw [if_neg hq, if_neg hq]
    intro x hx
    show (if x.1 - hdr = q - hdr then true else listed s sa al (x.1 - hdr)) = true
    split
    · rfl
    · rename_i hne
      rcases List.mem_cons.1 hx with rfl | hx'
      · exact absurd rfl hne
      · unfold listed
        have h1 := (i1.chunk hx).2.2
        have h2 := (hi.chunk hx').2.2
        rw [if_neg (fun h => h.elim h2 h1)]
        exact hfl _ hx'

theorem free_flags (hi : Inv base total s L) (hfl : Flags al L) {p r : Nat} (hp : (p, r) ∈ L) :
    ∃ s' al', freeD s al p = some (s', al') ∧ free s p = some s' ∧ Inv base total s' (L.filter fun x => x.1 ≠ p) ∧
      Flags al' (L.filter fun x => x.1 ≠ p) ∧ al' (p - hdr) = false := by
  obtain ⟨s1, L1, e1, i1, k1⟩ := step_ok first_fits hi (op := .free p) ⟨r, hp⟩
  simp only [step] at e1
  obtain ⟨sf, ef, e2⟩ := Option.map_eq_some_iff.1 e1
  simp only [Prod.mk.injEq] at e2
  obtain ⟨rfl, rfl⟩ := e2
  unfold freeD
  rw [check_of (hfl _ hp), ef]
  refine ⟨_, _, rfl, rfl, i1, ?_, if_pos rfl⟩
  intro x hx
  obtain ⟨hx1, hx2⟩ := List.mem_filter.1 hx
  have hne : x.1 ≠ p := by simpa using hx2
  have h1 := i1.chunk hx
  have h2 := hi.chunk hx1
  have h3 := (hi.chunk hp).1
  show (if x.1 - hdr = p - hdr then false else listed s sf al (x.1 - hdr)) = true
  rw [if_neg (by dsimp only at h3; omega)]
  unfold listed
  rw [if_neg (fun h => h.elim h2.2.2 h1.2.2)]
  exact hfl _ hx1

theorem copy_inv {t t' : Pool} {d p n : Nat} (hi : Inv base total t L) (h : t.copy d p n = some t') : Inv base total t' L := by
  obtain ⟨C, hG, hR⟩ := hi
  unfold Pool.copy at h
  split at h
  · cases h; exact ⟨C, hG.mem _, hR⟩
  · cases h

theorem move_flags (h40 : 40 ≤ total) (hf : Fits find) (hi : Inv base total s L) (hfl : Flags al L) {p r origin n : Nat} (hp : (p, r) ∈ L) (hn : n + 31 < 2 ^ 64) :
    (moveD find s al p origin n).map (fun r => (r.1.1, r.2)) = move find s p origin n ∧
    ∀ s' al' q, moveD find s al p origin n = some ((s', al'), q) → Flags al' (if q = 0 then L else (q, n) :: L.filter fun x => x.1 ≠ p) := by
  obtain ⟨sa, al1, q, e1, e2, i1, f1⟩ := alloc_flags hf hi hfl hn
  unfold moveD move
  rw [e1, e2]
  simp only [Option.bind_some]
  by_cases hq : q = 0
  · rw [if_pos hq] at f1
    rw [if_pos hq, if_pos hq]
    refine ⟨rfl, fun s' al' q' e => ?_⟩
    simp only [Option.some.injEq, Prod.mk.injEq] at e
    obtain ⟨⟨rfl, rfl⟩, rfl⟩ := e
    exact f1
  · rw [if_neg hq] at i1 f1
    rw [if_neg hq, if_neg hq]
    cases hc : sa.copy q p origin with
    | none => exact ⟨rfl, fun s' al' q' e => by cases e⟩
    | some sc =>
      obtain ⟨sf, al2, e3, e4, i2, f2, -⟩ := free_flags (copy_inv i1 hc) f1 (List.mem_cons_of_mem _ hp)
      simp only [Option.bind_some, e3, e4, Option.map_some]
      refine ⟨trivial, fun s' al' q' e => ?_⟩
      simp only [Option.some.injEq, Prod.mk.injEq] at e
      obtain ⟨⟨rfl, rfl⟩, rfl⟩ := e
      rw [if_neg hq]
      have hS := List.pairwise_cons.1 (i1.sound h40).apart
      have hqp : q ≠ p := by
        have := hS.1 _ hp
        dsimp only at this
        omega
      rw [List.filter_cons, if_pos (by simpa using hqp)] at f2
      exact f2

theorem step_flags (h40 : 40 ≤ total) (hf : Fits find) (hi : Inv base total s L) (hfl : Flags al L) {op : Op} (hop : ok L op) :
    ∃ s' al' L', stepD find s al L op = some ((s', al'), L') ∧ step find s L op = some (s', L') ∧ Inv base total s' L' ∧ Flags al' L' := by
  obtain ⟨s', L', e, i', -⟩ := step_ok hf hi hop
  cases op with
  | alloc n =>
    obtain ⟨s', al', q, e1, e2, i1, f1⟩ := alloc_flags hf hi hfl hop
    exact ⟨s', al', _, by simp only [stepD, e1, Option.map_some], by simp only [step, e2, Option.map_some], i1, f1⟩
  | free p =>
    obtain ⟨r, hr⟩ := hop
    obtain ⟨s', al', e1, e2, i1, f1, -⟩ := free_flags hi hfl hr
    exact ⟨s', al', _, by simp only [stepD, e1, Option.map_some], by simp only [step, e2, Option.map_some], i1, f1⟩
  | write p i v => exact ⟨_, al, L, rfl, rfl, by cases e; exact i', hfl⟩
  | realloc p n =>
    obtain ⟨⟨r, hr⟩, hn⟩ := hop
    simp only [step] at e
    obtain ⟨⟨s1, q⟩, e1, e2⟩ := Option.map_eq_some_iff.1 e
    simp only [Prod.mk.injEq] at e2
    obtain ⟨rfl, rfl⟩ := e2
    suffices h : ∃ al', reallocD find s al p n = some ((s1, al'), q) ∧ Flags al' (if q = 0 then L else (q, n) :: L.filter fun x => x.1 ≠ p) by
      obtain ⟨al', h1, h2⟩ := h
      exact ⟨s1, al', _, by simp only [stepD, h1, Option.map_some], by simp only [step, e1, Option.map_some], i', h2⟩
    have hn' : align n + 31 < 2 ^ 64 := by
      have := align_ok hn
      have : align n ≤ n + 31 := by unfold align; rw [Nat.mod_eq_of_lt hn]; omega
      omega
    have hfl2 : ∀ {k}, Flags al ((p, k) :: L.filter fun x => x.1 ≠ p) := by
      intro k x hx
      rcases List.mem_cons.1 hx with rfl | hx
      · exact hfl (p, r) hr
      · exact hfl _ (List.mem_filter.1 hx).1
    have hmove : ∀ origin, move find s p origin (align n) = some (s1, q) →
        ∃ al', moveD find s al p origin (align n) = some ((s1, al'), q) ∧ Flags al' (if q = 0 then L else (q, n) :: L.filter fun x => x.1 ≠ p) := by
      intro origin em
      obtain ⟨m1, m2⟩ := move_flags h40 hf hi hfl (origin := origin) hr hn'
      rw [em] at m1
      obtain ⟨⟨⟨s2, al2⟩, q2⟩, em1, em2⟩ := Option.map_eq_some_iff.1 m1
      simp only [Prod.mk.injEq] at em2
      obtain ⟨rfl, rfl⟩ := em2
      refine ⟨al2, em1, ?_⟩
      have := m2 _ _ _ em1
      split
      · rename_i h; rw [if_pos h] at this; exact this
      · rename_i h
        rw [if_neg h] at this
        intro x hx
        rcases List.mem_cons.1 hx with rfl | hx
        · exact this (q2, align n) (by simp)
        · exact this x (List.mem_cons_of_mem _ hx)
    unfold realloc at e1
    unfold reallocD
    rw [check_of (hfl _ hr)]
    simp only [Bool.not_true, Bool.false_eq_true, if_false]
    by_cases h1 : align n > s.avail
    · rw [if_pos h1] at e1 ⊢
      simp only [Option.some.injEq, Prod.mk.injEq] at e1
      obtain ⟨rfl, rfl⟩ := e1
      exact ⟨al, rfl, hfl⟩
    · rw [if_neg h1] at e1 ⊢
      dsimp only at e1 ⊢
      by_cases h2 : size (s.usize (p - hdr)) ≥ align n
      · rw [if_pos h2] at e1 ⊢
        simp only [Option.some.injEq, Prod.mk.injEq] at e1
        obtain ⟨rfl, rfl⟩ := e1
        refine ⟨al, rfl, ?_⟩
        split
        · exact hfl
        · exact hfl2
      · rw [if_neg h2] at e1 ⊢
        cases hb : next (p - hdr) s.block with
        | none => rw [hb] at e1; exact hmove _ e1
        | some b =>
          rw [hb] at e1
          dsimp only at e1 ⊢
          by_cases h3 : used (s.usize b) = true ∨ hdr + size (s.usize b) < sub (align n) (size (s.usize (p - hdr)))
          · rw [if_pos h3] at e1
            rw [if_pos h3]
            exact hmove _ e1
          · rw [if_neg h3] at e1
            rw [if_neg h3, e1]
            refine ⟨_, rfl, ?_⟩
            have hqp : q = p := by
              unfold expand at e1
              dsimp only at e1
              obtain ⟨s2, -, e1⟩ := Option.bind_eq_some_iff.1 e1
              obtain ⟨s3, -, e1⟩ := Option.bind_eq_some_iff.1 e1
              split at e1
              · cases e1; rfl
              · obtain ⟨s4, -, e1⟩ := Option.map_eq_some_iff.1 e1
                cases e1; rfl
            subst hqp
            have hq0 : q ≠ 0 := by have := (hi.chunk hr).1; dsimp only at this; omega
            rw [if_neg hq0] at i' ⊢
            intro x hx
            have h5 := (i'.chunk hx).2.2
            have h6 : x.1 - hdr ∉ s.free := by
              rcases List.mem_cons.1 hx with rfl | hx
              · exact (hi.chunk hr).2.2
              · exact (hi.chunk (List.mem_filter.1 hx).1).2.2
            unfold listed
            dsimp only
            rw [if_neg (fun h => h.elim h6 h5)]
            exact hfl2 x hx

theorem ReachD.all (h40 : 40 ≤ total) (hW : base + total ≤ 2 ^ 64) (hf : Fits find) (h : ReachD find mem base total s al L) :
    Reach find mem base total s L ∧ Inv base total s L ∧ Flags al L := by
  induction h with
  | new => exact ⟨.new, Inv.init h40 hW, fun x hx => by cases hx⟩
  | step _ hop e hk ih =>
    obtain ⟨r, i, f⟩ := ih
    obtain ⟨s2, al2, L2, e2, e3, i2, f2⟩ := step_flags h40 hf i f hop
    rw [e] at e2
    cases e2
    refine ⟨.step r hop e3, i2, fun x hx => ?_⟩
    rw [hk _ (i2.chunk hx).2.1]
    exact f2 x hx

/-- The check never refuses what the user may do: along every history of calls with it, the pools and the blocks are those of a history without, and the next call
does the same with it as without. -/
theorem checked_histories (hf : Fits find) (h40 : 40 ≤ total) (hW : base + total ≤ 2 ^ 64) (h : ReachD find mem base total s al L) :
    Reach find mem base total s L ∧
    ∀ op, ok L op → ∃ s' al' L', stepD find s al L op = some ((s', al'), L') ∧ step find s L op = some (s', L') := by
  obtain ⟨r, i, f⟩ := h.all h40 hW hf
  refine ⟨r, fun op hop => ?_⟩
  obtain ⟨s', al', L', e1, e2, -, -⟩ := step_flags h40 hf i f hop
  exact ⟨s', al', L', e1, e2⟩

/-- A block freed a second time is left alone: right after the first time, the second has no effect, and neither has resizing it, which returns no block. -/
theorem misuse_refused (hf : Fits find) (h40 : 40 ≤ total) (hW : base + total ≤ 2 ^ 64) (h : ReachD find mem base total s al L) {p r : Nat} (hp : (p, r) ∈ L)
    {s' : Pool} {al' : Alone} (hfree : freeD s al p = some (s', al')) :
    freeD s' al' p = some (s', al') ∧ ∀ n, reallocD find s' al' p n = some ((s', al'), 0) := by
  obtain ⟨-, i, f⟩ := h.all h40 hW hf
  obtain ⟨s1, al1, e1, -, -, -, e2⟩ := free_flags i f hp
  rw [hfree] at e1
  cases e1
  constructor
  · simp only [freeD, check, e2, Bool.not_false, if_true]
  · intro n; simp only [reallocD, check, e2, Bool.not_false, if_true]

/-- Running a list of operations, checking what the user owes. -/
def runD (find : Find) : List Op → (Pool × Alone) × Live → Option ((Pool × Alone) × Live)
  | [], r => some r
  | op :: l, r => if ok r.2 op then (stepD find r.1.1 r.1.2 r.2 op).bind (runD find l) else none

theorem reachD_run : ∀ {l : List Op} {s : Pool} {al : Alone} {L : Live} {r : (Pool × Alone) × Live},
    ReachD find mem base total s al L → runD find l ((s, al), L) = some r → ReachD find mem base total r.1.1 r.1.2 r.2 := by
  intro l
  induction l with
  | nil => intro s al L r h e; cases e; exact h
  | cons op l ih =>
    intro s al L r h e
    unfold runD at e
    by_cases ho : ok L op
    · rw [if_pos ho] at e
      obtain ⟨⟨⟨s', al'⟩, L'⟩, e1, e2⟩ := Option.bind_eq_some_iff.1 e
      exact ih (.step h ho e1 fun _ _ => rfl) e2
    · rw [if_neg ho] at e; cases e

/-- The hypotheses are met by a pool after a history with all kinds of calls. -/
example : ∃ s al, ReachD bestFit (fun _ => none) 4096 1024 s al [(4480, 300), (4376, 50)] := by
  have e : (runD bestFit [.alloc 10, .alloc 100, .write 4208 3 7#8, .free 4136, .alloc 50, .realloc 4208 300]
    ((init (fun _ => none) 4096 1024, fun _ => false), [])).map (·.2) = some [(4480, 300), (4376, 50)] := by decide +kernel
  obtain ⟨⟨⟨s, al⟩, L⟩, e1, e2⟩ := Option.map_eq_some_iff.1 e
  cases e2
  exact ⟨s, al, reachD_run (.new rfl) e1⟩

/-- Freeing twice: without the check the chunk is on the free list twice. -/
example : ((alloc firstFit (init (fun _ => none) 4096 1024) 32).bind fun r => (alloc firstFit r.1 32).bind fun r' => (free r'.1 4136).bind fun s =>
    (free s 4136).map fun s => s.free) = some [4096, 4096, 4240] := by decide +kernel

/-- With it, the second call changes nothing. -/
example : ((allocD firstFit (init (fun _ => none) 4096 1024) (fun _ => false) 32).bind fun r => (allocD firstFit r.1.1 r.1.2 32).bind fun r' =>
    (freeD r'.1.1 r'.1.2 4136).bind fun s => (freeD s.1 s.2 4136).map fun s => s.1.free) = some [4096, 4240] := by decide +kernel

end
end Bfdev.Memalloc

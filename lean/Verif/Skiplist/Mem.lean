import Verif.Skiplist.Any
import Verif.Life.Props
/-!
Property C114: the memory of skip lists. The skip list of `Verif/Skiplist/Any.lean` on the allocators of `Verif/Life/Model.lean`: nodes are blocks, and giving
back a block that is not live is the outcome `none`.
-/
namespace Bfdev.Skiplist
open Life (World Block Ok malloc free)

variable {κ : Type}

/-- A skip list in memory: the allocator, the block of the head, and the list itself. -/
structure Obj (κ : Type) where
  alloc : Nat
  head : Nat
  s : Skip κ

/-- Size of a node with `level` entries, `sizeof(*node) + sizeof(*node->list) * level`, skiplist.c:77. -/
def nodeSize (level : Nat) : Nat := 8 + 16 * level

/-- Size of a head with `levels` entries, `sizeof(*head) + sizeof(*head->nodes) * levels`, skiplist.c:169. -/
def headSize (levels : Nat) : Nat := 16 + 16 * levels

/-- `bfdev_skiplist_create`, skiplist.c:159-181. -/
def memCreate (w : World) (alloc levels : Nat) (key : Nat → κ) : World × Option (Obj κ) :=
  match create levels key with
  | none => (w, none)
  | some s =>
    let m := malloc w alloc (headSize levels)
    if m.2 = 0 then (m.1, none) else (m.1, some ⟨alloc, m.2, s⟩)

/-- `bfdev_skiplist_insert`, skiplist.c:63-100. -/
def memInsert (w : World) (o : Obj κ) (key : κ) (f : Nat → κ → Int) (rand : Nat → Nat) : Option (World × Obj κ × Int) :=
  (randomLevel o.s.levels rand).bind fun level =>
    let m := malloc w o.alloc (nodeSize level)
    (askInsert o.s key f rand (if m.2 = 0 then none else some m.2)).map fun r => (m.1, { o with s := r.1 }, r.2.1)

/-- `bfdev_skiplist_delete`, skiplist.c:102-121. -/
def memDelete (w : World) (o : Obj κ) (f : Nat → κ → Int) : Option (World × Obj κ) :=
  (askNodeFind o.s f).bind fun r =>
    match r.1 with
    | none => some (w, o)
    | some (n, level) => (deleteLoop n level o.s).bind fun s => (free w o.alloc n).map fun w => (w, { o with s := { s with live := s.live.erase n } })

/-- `skiplist_release`, skiplist.c:132-144: the nodes of the lowest level in turn; the next one is loaded before a node is given back. -/
def memRelease (alloc : Nat) : List Nat → World → Option World
  | [], w => some w
  | n :: l, w => (free w alloc n).bind (memRelease alloc l)

/-- `bfdev_skiplist_reset`, skiplist.c:146-157. -/
def memReset (w : World) (o : Obj κ) : Option (World × Obj κ) :=
  (memRelease o.alloc (o.s.lv 0) w).map fun w => (w, { o with s := { o.s with lv := fun k => if k < o.s.levels then [] else o.s.lv k, curr := 0, live := [] } })

/-- `bfdev_skiplist_destroy`, skiplist.c:183-192. -/
def memDestroy (w : World) (o : Obj κ) : Option World := (memRelease o.alloc (o.s.lv 0) w).bind fun w => free w o.alloc o.head

/-! ## Specification -/

/-- Histories of a skip list among other users of the same allocators. `R` are the blocks of the others. As in C24, an insertion may only be refused memory if
the level drawn for it is not above all others. -/
inductive Run : World → Obj κ → List Block → Prop
  | new {w alloc levels key w' o} : Ok w → memCreate w alloc levels key = (w', some o) → Run w' o w.live
  | insert {w o R key f rand w' o' ret} : Run w o R →
      (ret ≠ 0 → ∀ level, randomLevel o.s.levels rand = some level → level ≤ o.s.curr) → memInsert w o key f rand = some (w', o', ret) → Run w' o' R
  | delete {w o R f w' o'} : Run w o R → memDelete w o f = some (w', o') → Run w' o' R
  | reset {w o R w' o'} : Run w o R → memReset w o = some (w', o') → Run w' o' R
  | otherAlloc {w : World} {o R alloc size w' p} : Run w o R → malloc w alloc size = (w', p) → p ≠ 0 → Run w' o (⟨alloc, p, size⟩ :: R)
  | otherFree {w : World} {o R b w'} : Run w o R → b ∈ R → free w b.alloc b.addr = some w' → Run w' o (R.erase b)

/-- The blocks of a skip list: its head and its nodes, of which `ht` says how many entries they have. -/
def blocks (o : Obj κ) (ht : Nat → Nat) : List Block := ⟨o.alloc, o.head, headSize o.s.levels⟩ :: (o.s.lv 0).map fun n => ⟨o.alloc, n, nodeSize (ht n)⟩

/-! ## Proofs -/

structure Held (w : World) (o : Obj κ) (R : List Block) (ht : Nat → Nat) : Prop where
  ok : Ok w
  live : w.live.Perm (blocks o ht ++ R)
  shape : Shape o.s ht

theorem memRelease_ok (alloc : Nat) (size : Nat → Nat) : ∀ (l : List Nat) (w : World) (R : List Block), Ok w → w.live.Perm (l.map (fun n => ⟨alloc, n, size n⟩) ++ R) →
    ∃ w', memRelease alloc l w = some w' ∧ Ok w' ∧ w'.live.Perm R := by
  intro l
  induction l with
  | nil => intro w R h p; exact ⟨w, rfl, h, p⟩
  | cons n l ih =>
    intro w R h p
    obtain ⟨w1, e1, o1, p1, -⟩ := Life.free_spec h (b := ⟨alloc, n, size n⟩) p
    obtain ⟨w2, e2, o2, p2⟩ := ih w1 R o1 p1
    exact ⟨w2, by rw [memRelease]; dsimp only at e1; rw [e1]; exact e2, o2, p2⟩

theorem Held.fresh {w : World} {o : Obj κ} {R : List Block} {ht : Nat → Nat} (h : Held w o R ht) {alloc size : Nat} (h0 : (malloc w alloc size).2 ≠ 0) :
    (malloc w alloc size).2 ∉ o.s.live := by
  intro hm
  have hm0 := (h.shape.live _).2 hm
  have hb : (⟨o.alloc, (malloc w alloc size).2, nodeSize (ht (malloc w alloc size).2)⟩ : Block) ∈ w.live :=
    h.live.mem_iff.2 (List.mem_append_left _ (List.mem_cons_of_mem _ (List.mem_map.2 ⟨_, hm0, rfl⟩)))
  obtain ⟨o1, -, ⟨e, -⟩ | ⟨-, -, e⟩⟩ := Life.malloc_spec h.ok alloc size
  · exact h0 e
  · have := o1.nodup
    rw [e, List.map_cons, List.nodup_cons] at this
    exact this.1 (List.mem_map.2 ⟨_, hb, rfl⟩)

theorem blocks_upd {o : Obj κ} {s : Skip κ} {ht : Nat → Nat} {n level : Nat} {A B : List Nat} (hA : o.s.lv 0 = A ++ B) (hB : s.lv 0 = A ++ n :: B)
    (hl : s.levels = o.s.levels) (hn : n ∉ o.s.lv 0) :
    (blocks { o with s := s } (upd ht n level)).Perm (⟨o.alloc, n, nodeSize level⟩ :: blocks o ht) := by
  have hmap : ∀ l : List Nat, n ∉ l → l.map (fun x => (⟨o.alloc, x, nodeSize (upd ht n level x)⟩ : Block)) = l.map fun x => ⟨o.alloc, x, nodeSize (ht x)⟩ := by
    intro l hl
    refine List.map_congr_left fun x hx => ?_
    unfold upd
    rw [if_neg (by intro e; subst e; exact hl hx)]
  rw [hA, List.mem_append, not_or] at hn
  unfold blocks
  dsimp only
  rw [hB, hA, hl, List.map_append, List.map_cons, List.map_append, hmap A hn.1, hmap B hn.2]
  have hu : upd ht n level n = level := if_pos rfl
  rw [hu]
  exact (List.perm_middle.cons _).trans (List.Perm.swap _ _ _)

theorem Held.step_insert {w : World} {o : Obj κ} {R : List Block} {ht : Nat → Nat} (h : Held w o R ht) (key : κ) (f : Nat → κ → Int) (rand : Nat → Nat) :
    ∃ w' o' ret level, randomLevel o.s.levels rand = some level ∧ memInsert w o key f rand = some (w', o', ret) ∧
      ((ret = 0 ∧ ∃ n, Held w' o' R (upd ht n level)) ∨
        (ret = -12 ∧ w'.live = w.live ∧ Ok w' ∧ w.fail w.calls = true ∧ o' = { o with s := { o.s with curr := max o.s.curr level } })) := by
  obtain ⟨level, e1, hl1, hl2⟩ := random_level h.shape.lpos rand
  obtain ⟨m1, -, m2⟩ := Life.malloc_spec h.ok o.alloc (nodeSize level)
  by_cases h0 : (malloc w o.alloc (nodeSize level)).2 = 0
  · have hlive : (malloc w o.alloc (nodeSize level)).1.live = w.live ∧ w.fail w.calls = true := by
      rcases m2 with ⟨-, a, b⟩ | ⟨a, -⟩
      · exact ⟨a, b.resolve_left (by unfold nodeSize; omega)⟩
      · exact absurd h0 a
    refine ⟨_, _, _, level, e1, ?_, Or.inr ⟨rfl, hlive.1, m1, hlive.2, rfl⟩⟩
    unfold memInsert askInsert
    rw [e1]
    simp only [Option.bind_some, if_pos h0, Option.map_some]
  · have hn := h.fresh h0
    obtain ⟨s', level', A, B, q, e1', e2, hs, -, hA, hB, -, -, hlv⟩ := askInsert_level h.shape key f rand hn
    cases e1.symm.trans e1'
    refine ⟨(malloc w o.alloc (nodeSize level)).1, { o with s := s' }, 0, level, e1, ?_, Or.inl ⟨rfl, _, m1, ?_, hs⟩⟩
    · unfold memInsert
      rw [e1]
      simp only [Option.bind_some, if_neg h0, e2, Option.map_some]
    · have hlive : (malloc w o.alloc (nodeSize level)).1.live = ⟨o.alloc, (malloc w o.alloc (nodeSize level)).2, nodeSize level⟩ :: w.live := by
        rcases m2 with ⟨a, -⟩ | ⟨-, -, a⟩
        · exact absurd a h0
        · exact a
      rw [hlive]
      refine (h.live.cons _).trans ?_
      rw [← List.cons_append]
      exact ((blocks_upd hA hB hlv (fun hh => hn ((h.shape.live _).1 hh))).symm.append_right R)

theorem deleteLoop_levels (n : Nat) : ∀ (l : Nat) (s s' : Skip κ), deleteLoop n l s = some s' → s'.levels = s.levels := by
  intro l
  induction l with
  | zero => intro s s' e; cases e; rfl
  | succ l ih =>
    intro s s' e
    rw [deleteLoop] at e
    split at e
    · have := ih _ _ e; rw [this]
    · cases e

theorem Held.step_delete {w : World} {o : Obj κ} {R : List Block} {ht : Nat → Nat} (h : Held w o R ht) (f : Nat → κ → Int) :
    ∃ w' o', memDelete w o f = some (w', o') ∧ Held w' o' R ht := by
  obtain ⟨s', q, e, hs, -, -, hc⟩ := askDelete_ok h.shape f
  unfold askDelete at e
  unfold memDelete
  cases hf : askNodeFind o.s f with
  | none => rw [hf] at e; cases e
  | some r =>
    rw [hf, Option.bind_some] at e
    rw [Option.bind_some]
    cases hr : r.1 with
    | none => exact ⟨w, o, by rfl, h⟩
    | some nl =>
      obtain ⟨n, l⟩ := nl
      rw [hr] at e
      dsimp only at e ⊢
      cases hd : deleteLoop n l o.s with
      | none => rw [hd] at e; cases e
      | some s1 =>
        rw [hd, Option.bind_some] at e
        rw [Option.bind_some]
        split at e
        · next hlive =>
          cases e
          -- the node was in the list and is gone from it
          obtain ⟨r', q', e', hq, -, h2⟩ := askNodeFind_ok h.shape f
          rw [hf] at e'
          cases e'
          obtain ⟨-, -, hn, hl⟩ := h2 n l hr
          have hin : ∀ j, j < l → n ∈ o.s.lv j := fun j hj => by rw [h.shape.lv]; exact F_mem.2 ⟨hn, by omega⟩
          obtain ⟨cur, e2, -⟩ := deleteLoop_ok n l o.s hin
          rw [hd] at e2
          cases e2
          have hl0 : 0 < l := by have := (h.shape.pos n hn).1; omega
          obtain ⟨A, B, hAB⟩ := List.append_of_mem hn
          have hnd := h.shape.nd
          have hnA : n ∉ A := fun hh => by rw [hAB] at hnd; exact (List.nodup_append.1 hnd).2.2 n hh n (by simp) rfl
          have herase : (o.s.lv 0).erase n = A ++ B := by rw [hAB, List.erase_append_right _ hnA, List.erase_cons_head]
          have hp : w.live.Perm (⟨o.alloc, n, nodeSize (ht n)⟩ :: ((⟨o.alloc, o.head, headSize o.s.levels⟩ :: (A ++ B).map fun n => ⟨o.alloc, n, nodeSize (ht n)⟩) ++ R)) := by
            refine h.live.trans ?_
            unfold blocks
            rw [hAB, ← List.cons_append]
            refine List.Perm.append_right R ?_
            rw [List.map_append, List.map_append, List.map_cons]
            exact (List.perm_middle.cons _).trans (List.Perm.swap _ _ _)
          obtain ⟨w', e3, o3, p3, -⟩ := Life.free_spec h.ok hp
          dsimp only at e3
          rw [e3]
          refine ⟨w', _, rfl, o3, ?_, hs⟩
          refine p3.trans ?_
          unfold blocks
          dsimp only
          rw [if_pos hl0, herase]
        · cases e

theorem Held.step_reset {w : World} {o : Obj κ} {R : List Block} {ht : Nat → Nat} (h : Held w o R ht) :
    ∃ w' o', memReset w o = some (w', o') ∧ Held w' o' R ht ∧ o'.s.lv 0 = [] ∧ w'.live.Perm (⟨o.alloc, o.head, headSize o.s.levels⟩ :: R) := by
  have hp : w.live.Perm ((o.s.lv 0).map (fun n => (⟨o.alloc, n, nodeSize (ht n)⟩ : Block)) ++ (⟨o.alloc, o.head, headSize o.s.levels⟩ :: R)) :=
    h.live.trans (by unfold blocks; rw [List.cons_append]; exact List.perm_middle.symm)
  obtain ⟨w', e, o', p⟩ := memRelease_ok o.alloc (fun n => nodeSize (ht n)) (o.s.lv 0) w _ h.ok hp
  have hpos := h.shape.lpos
  refine ⟨w', _, by rw [memReset, e]; rfl, ⟨o', ?_, ?_⟩, if_pos hpos, p⟩
  · refine p.trans ?_
    unfold blocks
    dsimp only
    rw [if_pos hpos]
    rfl
  · have hz : ∀ k, (if k < o.s.levels then [] else o.s.lv k) = [] := by
      intro k
      split
      · rfl
      · rw [h.shape.lv]
        exact F_top fun x hx => by have := h.shape.pos x hx; have := h.shape.cur; omega
    refine ⟨fun k => ?_, fun x hx => ?_, Nat.zero_le _, fun h => absurd h (Nat.lt_irrefl 0), ?_, List.nodup_nil, fun n => ?_, ?_, hpos⟩
    · show (if k < o.s.levels then [] else o.s.lv k) = F ht k (if 0 < o.s.levels then [] else o.s.lv 0)
      rw [hz, hz]; rfl
    · have hx : x ∈ (if 0 < o.s.levels then [] else o.s.lv 0) := hx
      rw [hz] at hx; cases hx
    · show (if 0 < o.s.levels then [] else o.s.lv 0).Nodup
      rw [hz]; exact List.nodup_nil
    · show n ∈ (if 0 < o.s.levels then [] else o.s.lv 0) ↔ n ∈ []
      rw [hz]
    · exact List.pairwise_of_forall fun _ _ => Int.le_refl _

theorem Run.held {w : World} {o : Obj κ} {R : List Block} (h : Run w o R) : ∃ ht, Held w o R ht := by
  induction h with
  | @new w alloc levels key w' o ok e =>
    unfold memCreate at e
    cases hc : create levels key with
    | none => rw [hc] at e; cases e
    | some s =>
      rw [hc] at e
      dsimp only at e
      obtain ⟨m1, -, m2⟩ := Life.malloc_spec ok alloc (headSize levels)
      split at e
      · cases e
      · next h0 =>
        cases e
        have hs := Inv.new (cmp := fun _ _ => 0) hc
        have h0lv : s.lv 0 = [] ∧ s.levels = levels := by
          unfold create at hc
          split at hc <;> cases hc
          exact ⟨rfl, rfl⟩
        refine ⟨_, m1, ?_, hs⟩
        rcases m2 with ⟨a, -⟩ | ⟨-, -, a⟩
        · exact absurd a h0
        · rw [a]
          unfold blocks
          dsimp only
          rw [h0lv.1, h0lv.2]
          exact List.Perm.refl _
  | @insert w o R key f rand w' o' ret _ hl e ih =>
    obtain ⟨ht, ih⟩ := ih
    obtain ⟨w1, o1, r1, level, e0, e1, c⟩ := ih.step_insert key f rand
    rw [e] at e1
    cases e1
    rcases c with ⟨-, n, c⟩ | ⟨c1, c2, c3, -, c4⟩
    · exact ⟨_, c⟩
    · have := hl (by rw [c1]; decide) level e0
      rw [Nat.max_eq_left this] at c4
      subst c4
      exact ⟨ht, c3, by rw [c2]; exact ih.live, ih.shape⟩
  | @delete w o R f w' o' _ e ih =>
    obtain ⟨ht, ih⟩ := ih
    obtain ⟨w1, o1, e1, c⟩ := ih.step_delete f
    rw [e] at e1
    cases e1
    exact ⟨ht, c⟩
  | reset _ e ih =>
    obtain ⟨ht, ih⟩ := ih
    obtain ⟨w1, o1, e1, c, -⟩ := ih.step_reset
    rw [e] at e1
    cases e1
    exact ⟨ht, c⟩
  | @otherAlloc w o R alloc size w' p _ e h0 ih =>
    obtain ⟨ht, ih⟩ := ih
    obtain ⟨m1, -, m2⟩ := Life.malloc_spec ih.ok alloc size
    rw [e] at m1 m2
    refine ⟨ht, m1, ?_, ih.shape⟩
    rcases m2 with ⟨a, -⟩ | ⟨-, -, a⟩
    · exact absurd a h0
    · dsimp only at a
      rw [a]
      exact (ih.live.cons _).trans List.perm_middle.symm
  | @otherFree w o R b w' _ hb e ih =>
    obtain ⟨ht, ih⟩ := ih
    have hp : w.live.Perm (b :: (blocks o ht ++ R.erase b)) :=
      ih.live.trans (((List.perm_cons_erase hb).append_left _).trans List.perm_middle)
    obtain ⟨w1, e1, o1, p1, -⟩ := Life.free_spec ih.ok hp
    rw [e] at e1
    cases e1
    exact ⟨ht, o1, p1, ih.shape⟩

/-! ## The property -/

/-- **C114** (missing: insertions refused memory after drawing a level above all others, which break the list, C24). Whatever is inserted, deleted and reset, whatever
the callbacks answer, which levels are drawn, which requests are refused and what others do with their own blocks: the blocks in use are those of the others, the
head, and one block per node of the list, and every list entry that is in use lies inside the block of its node or of the head. -/
theorem memory_exact_partial {w : World} {o : Obj κ} {R : List Block} (h : Run w o R) :
    ∃ ht : Nat → Nat, w.live.Perm (blocks o ht ++ R) ∧ (∀ k n, n ∈ o.s.lv k → n ∈ o.s.lv 0 ∧ 8 + 16 * (k + 1) ≤ nodeSize (ht n)) ∧
      (∀ k, o.s.lv k ≠ [] → 16 + 16 * (k + 1) ≤ headSize o.s.levels) ∧ o.s.curr ≤ o.s.levels := by
  obtain ⟨ht, ih⟩ := h.held
  refine ⟨ht, ih.live, fun k n hn => ?_, fun k hk => ?_, ih.shape.cur⟩
  · rw [ih.shape.lv] at hn
    obtain ⟨h1, h2⟩ := F_mem.1 hn
    exact ⟨h1, by unfold nodeSize; omega⟩
  · obtain ⟨n, hn⟩ := List.exists_mem_of_ne_nil _ hk
    rw [ih.shape.lv] at hn
    obtain ⟨h1, h2⟩ := F_mem.1 hn
    have := ih.shape.pos n h1
    have := ih.shape.cur
    unfold headSize
    omega

/-- **C114.** At every such moment every call is well defined; deleting and resetting never give back a block twice or to a wrong allocator; an insertion fails only for
want of memory, and then changes no block. -/
theorem memory_calls_partial {w : World} {o : Obj κ} {R : List Block} (h : Run w o R) :
    (∀ key f rand, ∃ w' o' ret, memInsert w o key f rand = some (w', o', ret) ∧ (ret ≠ 0 → ret = -12 ∧ w.fail w.calls = true ∧ w'.live = w.live)) ∧
      (∀ f, ∃ w' o', memDelete w o f = some (w', o')) ∧
      ∃ w' o', memReset w o = some (w', o') ∧ w'.live.Perm (⟨o.alloc, o.head, headSize o.s.levels⟩ :: R) := by
  obtain ⟨ht, ih⟩ := h.held
  refine ⟨fun key f rand => ?_, fun f => ?_, ?_⟩
  · obtain ⟨w', o', ret, level, -, e, c⟩ := ih.step_insert key f rand
    refine ⟨w', o', ret, e, fun hr => ?_⟩
    rcases c with ⟨c, -⟩ | ⟨c1, c2, -, c3, -⟩
    · exact absurd c hr
    · exact ⟨c1, c3, c2⟩
  · obtain ⟨w', o', e, -⟩ := ih.step_delete f
    exact ⟨w', o', e⟩
  · obtain ⟨w', o', e, -, -, p⟩ := ih.step_reset
    exact ⟨w', o', e, p⟩

/-- **C114.** Destroying the list at any such moment gives back all its blocks, once each and to their allocator, and nothing else. -/
theorem memory_destroy_partial {w : World} {o : Obj κ} {R : List Block} (h : Run w o R) : ∃ w', memDestroy w o = some w' ∧ w'.live.Perm R := by
  obtain ⟨ht, ih⟩ := h.held
  have hp : w.live.Perm ((o.s.lv 0).map (fun n => (⟨o.alloc, n, nodeSize (ht n)⟩ : Block)) ++ (⟨o.alloc, o.head, headSize o.s.levels⟩ :: R)) :=
    ih.live.trans (by unfold blocks; rw [List.cons_append]; exact List.perm_middle.symm)
  obtain ⟨w1, e1, o1, p1⟩ := memRelease_ok o.alloc (fun n => nodeSize (ht n)) (o.s.lv 0) w _ ih.ok hp
  obtain ⟨w2, e2, -, p2, -⟩ := Life.free_spec o1 p1
  exact ⟨w2, by rw [memDestroy, e1, Option.bind_some]; exact e2, p2⟩

/-- **C114.** A creation that is refused leaves no memory behind. -/
theorem memory_create {w w' : World} (h : Ok w) (alloc levels : Nat) (key : Nat → κ) (e : memCreate w alloc levels key = (w', none)) :
    w'.live = w.live ∧ (levels = 0 ∨ w.fail w.calls = true) := by
  unfold memCreate at e
  cases hc : create levels key with
  | none =>
    rw [hc] at e
    cases e
    refine ⟨rfl, Or.inl ?_⟩
    unfold create at hc
    split at hc
    · assumption
    · cases hc
  | some s =>
    rw [hc] at e
    dsimp only at e
    obtain ⟨-, -, m2⟩ := Life.malloc_spec h alloc (headSize levels)
    split at e
    · next h0 =>
      cases e
      rcases m2 with ⟨-, a, b⟩ | ⟨a, -⟩
      · exact ⟨a, Or.inr (b.resolve_left (by unfold headSize; omega))⟩
      · exact absurd h0 a
    · cases e

/-! ### A concrete case -/

def memWorld : World := ⟨[⟨9, 3, 100⟩], 4, fun n => n == 3, 0⟩

/-- Creates a list with four levels, inserts 5 with two entries and 8 with one, is refused memory for 6, and deletes 8. -/
def memDemo : Option (World × Obj Nat) :=
  (memCreate memWorld 7 4 (fun _ => 0)).2.bind fun o =>
    (memInsert (memCreate memWorld 7 4 (fun _ => 0)).1 o 5 (fun _ k => if k < 5 then -1 else 1) (fun i => if i = 0 then 0 else 2 ^ 31 - 1)).bind fun a =>
      (memInsert a.1 a.2.1 8 (fun _ k => if k < 8 then -1 else 1) (fun _ => 2 ^ 31 - 1)).bind fun b =>
        (memInsert b.1 b.2.1 6 (fun _ k => if k < 6 then -1 else 1) (fun _ => 2 ^ 31 - 1)).bind fun c =>
          if a.2.2 = 0 ∧ b.2.2 = 0 ∧ c.2.2 = -12 ∧ (randomLevel b.2.1.s.levels fun _ => 2 ^ 31 - 1) = some 1 ∧ b.2.1.s.curr = 2 then
            memDelete c.1 c.2.1 (fun _ k => (k : Int) - 8)
          else none

example : (memDemo.map fun r => (r.1.live, r.2.s.lv 0, r.2.s.lv 1)) = some ([⟨7, 5, 40⟩, ⟨7, 4, 80⟩, ⟨9, 3, 100⟩], [5], [5]) := by decide +kernel
example : (memDemo.bind fun r => (memDestroy r.1 r.2).map (·.live)) = some [⟨9, 3, 100⟩] := by decide +kernel

/-- The history of this case is one of those of the theorems. -/
theorem memDemo_run : ∃ w o, memDemo = some (w, o) ∧ Run w o [⟨9, 3, 100⟩] := by
  have ok : Ok memWorld := ⟨by decide, by decide, by decide⟩
  have hs : memDemo.isSome = true := by decide +kernel
  obtain ⟨⟨w, o⟩, e⟩ := Option.isSome_iff_exists.1 hs
  refine ⟨w, o, e, ?_⟩
  unfold memDemo at e
  obtain ⟨o0, e0, e⟩ := Option.bind_eq_some_iff.1 e
  obtain ⟨⟨w1, o1, t1⟩, e1, e⟩ := Option.bind_eq_some_iff.1 e
  obtain ⟨⟨w2, o2, t2⟩, e2, e⟩ := Option.bind_eq_some_iff.1 e
  obtain ⟨⟨w3, o3, t3⟩, e3, e⟩ := Option.bind_eq_some_iff.1 e
  dsimp only at e
  split at e
  · next h =>
    obtain ⟨h1, h2, -, h4, h5⟩ := h
    have r0 : Run (memCreate memWorld 7 4 (fun _ => 0)).1 o0 [⟨9, 3, 100⟩] := Run.new ok (Prod.ext rfl e0)
    have r1 := Run.insert r0 (fun h => absurd h1 h) e1
    have r2 := Run.insert r1 (fun h => absurd h2 h) e2
    have r3 := Run.insert r2 (fun _ level hl => by rw [h4] at hl; cases hl; rw [h5]; decide) e3
    exact Run.delete r3 e
  · cases e

end Bfdev.Skiplist

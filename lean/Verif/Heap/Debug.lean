import Verif.Heap.Props
/-!
The checks of `BFDEV_DEBUG_HEAP`, which the default configuration turns on (CMakeLists.txt:63): `src/heap-debug.c` and the operations of `include/bfdev/heap.h`
that call them. A failed check is reported (not modelled) and the operation returns without touching memory.
-/
namespace Bfdev.Heap

/-- `bfdev_heap_check_link`, heap-debug.c:14-28. -/
def debugLink (s : State) (l : Link) (node : Addr) : Bool := if l.get s = node then false else true

/-- `bfdev_heap_check_delete`, heap-debug.c:30-61. -/
def debugDelete (s : State) (node : Addr) : Bool :=
  if s.left node = 0x500 then false
  else if s.right node = 0x510 then false
  else if s.parent node = 0x520 then false
  else true

/-- `bfdev_heap_link`, heap.h:144-158, with its check. -/
def linkD (s : State) (parent : Addr) (l : Link) (node : Addr) : State := if !debugLink s l node then s else link s parent l node

/-- `bfdev_heap_insert` with `bfdev_heap_insert_node`, heap.h:167-190, with the check: the heap is put in order in any case. -/
def insertD (cmp : Addr → Addr → Int) (fuel : Nat) (s : State) (node : Addr) : Option State :=
  (findParent s).bind fun pl => fixup cmp fuel (linkD s pl.1 pl.2 node) node

/-- `bfdev_heap_delete`, heap.h:197-214, with its check. -/
def deleteD (cmp : Addr → Addr → Int) (fuel : Nat) (s : State) (node : Addr) : Option State := if !debugDelete s node then some s else delete cmp fuel s node

/-- A call as the default configuration compiles it. -/
def Op.runD (cmp : Addr → Addr → Int) (fuel : Nat) (s : State) : Op → Option State
  | .insert n => insertD cmp fuel s n
  | .delete n => deleteD cmp fuel s n

def runAllD (cmp : Addr → Addr → Int) (fuel : Nat) (s : State) : List Op → Option State
  | [] => some s
  | op :: ops => (op.runD cmp fuel s).bind fun s => runAllD cmp fuel s ops

def Op.node : Op → Addr
  | .insert x | .delete x => x

/-- No node is at one of the three addresses deleted nodes point to. -/
def Poisonless (l : List Addr) : Prop := 0x500 ∉ l ∧ 0x510 ∉ l ∧ 0x520 ∉ l

theorem nextLink_get {s : State} {g : Nat → Addr} (h : Shape s g) : (nextLink g (s.count + 1)).get s = 0 := by
  have hz : g (s.count + 1) = 0 := Decidable.byContradiction fun hh => by have := (h.number _).1 hh; omega
  unfold nextLink
  by_cases h0 : s.count + 1 = 1
  · rw [if_pos h0]
    show s.root = 0
    rw [h.root]; rw [h0] at hz; exact hz
  · rw [if_neg h0]
    have hp : g ((s.count + 1) / 2) ≠ 0 := (h.number _).2 (by omega)
    split
    · rename_i hb
      show s.right _ = 0
      rw [h.right _ hp]
      rw [Nat.testBit_zero] at hb
      have : 2 * ((s.count + 1) / 2) + 1 = s.count + 1 := by simp at hb; omega
      rw [this, hz]
    · rename_i hb
      show s.left _ = 0
      rw [h.left _ hp]
      rw [Nat.testBit_zero] at hb
      have : 2 * ((s.count + 1) / 2) = s.count + 1 := by simp at hb; omega
      rw [this, hz]

theorem runD_eq {cmp : Addr → Addr → Int} {fuel : Nat} {s : State} {S : List Addr} (h : IsHeap cmp s S) (hb : S.length + 1 < 2 ^ 64) (hp : Poisonless S) :
    (∀ n, n ≠ 0 → insertD cmp fuel s n = insert cmp fuel s n) ∧ ∀ n ∈ S, deleteD cmp fuel s n = delete cmp fuel s n := by
  have hcnt := h.count
  obtain ⟨g, h1, -, h3⟩ := h
  constructor
  · intro n hn
    rw [insertD, insert, findParent_ok h1 (by rw [hcnt]; exact hb), Option.bind_some, Option.bind_some]
    have := nextLink_get h1
    simp only [linkD, debugLink, this, Ne.symm hn, if_false, Bool.not_true, Bool.false_eq_true]
  · intro n hn
    obtain ⟨hn0, k, rfl⟩ := (mem_nodes h1 n).1 (h3.mem_iff.2 hn)
    have key : ∀ j v, v ≠ 0 → v ∉ S → g j ≠ v := by
      rintro j v hv hS rfl
      exact hS (h3.mem_iff.1 ((mem_nodes h1 _).2 ⟨hv, j, rfl⟩))
    have e1 : s.left (g k) ≠ 0x500 := by rw [h1.left k hn0]; exact key _ _ (by decide) hp.1
    have e2 : s.right (g k) ≠ 0x510 := by rw [h1.right k hn0]; exact key _ _ (by decide) hp.2.1
    have e3 : s.parent (g k) ≠ 0x520 := by rw [h1.parent k hn0]; exact key _ _ (by decide) hp.2.2
    simp [deleteD, debugDelete, e1, e2, e3]

theorem checked_from {cmp : Addr → Addr → Int} (ho : Order cmp) (fuel bound : Nat) (hb : bound < 2 ^ 64) (hf : bound ≤ fuel) :
    ∀ (ops : List Op) (s : State) (S : List Addr), IsHeap cmp s S → S.length < bound → okAll bound S ops → Poisonless S → (∀ op ∈ ops, Poisonless [op.node]) →
    runAllD cmp fuel s ops = runAll cmp fuel s ops := by
  intro ops
  induction ops with
  | nil => intros; rfl
  | cons op ops ih =>
    intro s S h hl hok hp hop
    have h1 := hop op (by simp)
    have hr := runD_eq (fuel := fuel) h (by omega) hp
    cases op with
    | insert n =>
      obtain ⟨a, b, c, d⟩ := hok
      obtain ⟨s', e, h'⟩ := insert_sound ho h a b (Nat.lt_trans c hb) (Nat.le_trans (Nat.le_of_lt c) hf)
      simp only [runAllD, runAll, Op.runD, Op.run]
      rw [hr.1 n a, e]
      refine ih s' _ h' (by simpa using c) d ?_ (fun op hh => hop op (by simp [hh]))
      simp only [Poisonless, Op.node, List.mem_singleton, List.mem_cons] at hp h1 ⊢
      grind
    | delete n =>
      obtain ⟨a, b⟩ := hok
      obtain ⟨s', e, h'⟩ := delete_sound ho h a (Nat.lt_trans hl hb) (Nat.le_trans (Nat.le_of_lt hl) hf)
      simp only [runAllD, runAll, Op.runD, Op.run]
      rw [hr.2 n a, e]
      exact ih s' _ h' (Nat.lt_of_le_of_lt (by rw [List.length_erase_of_mem a]; omega) hl) b
        ⟨fun z => hp.1 (List.mem_of_mem_erase z), fun z => hp.2.1 (List.mem_of_mem_erase z), fun z => hp.2.2 (List.mem_of_mem_erase z)⟩ (fun op hh => hop op (by simp [hh]))

/-- C91, heaps. Every history of insertions of new nodes and deletions of nodes of the heap does with the checks exactly what it does without them, provided no node is at
the addresses 0x500, 0x510 and 0x520; so C16 holds for the default configuration. -/
theorem checked_histories {cmp : Addr → Addr → Int} (ho : Order cmp) (fuel bound : Nat) (hb : bound < 2 ^ 64) (hf : bound ≤ fuel) (h0 : 0 < bound) (s : State)
    (ops : List Op) (hok : okAll bound [] ops) (hp : ∀ op ∈ ops, Poisonless [op.node]) :
    runAllD cmp fuel (init s) ops = runAll cmp fuel (init s) ops ∧ ∃ s', runAllD cmp fuel (init s) ops = some s' ∧ IsHeap cmp s' (specAll [] ops) := by
  have e := checked_from ho fuel bound hb hf ops _ [] (init_sound cmp s) h0 hok (by simp [Poisonless]) hp
  refine ⟨e, ?_⟩
  rw [e]
  exact heap_histories ho fuel bound (Nat.le_of_lt hb) hf h0 s ops hok

/-- C91, heaps. In any memory whatever, a node that was deleted is not deleted again: memory is left as it is. -/
theorem misuse_refused (cmp cmp' : Addr → Addr → Int) (s s' : State) (x : Addr) (fuel fuel' : Nat) (e : deleteD cmp fuel s x = some s') :
    deleteD cmp' fuel' s' x = some s' := by
  by_cases hd : debugDelete s x
  · simp only [deleteD, hd] at e
    have : s'.left x = 0x500 := by
      cases hr : remove s x with
      | none => simp [delete, hr] at e
      | some r =>
        simp only [delete, hr, Option.bind_some, Bool.not_true, Bool.false_eq_true, if_false] at e
        obtain ⟨h3, -, e3⟩ := Option.map_eq_some_iff.1 e
        rw [← e3]
        simp [State.setNode, State.setLeft, State.setRight, State.setParent, upd]
    simp [deleteD, debugDelete, this]
  · have : s' = s := by simpa [deleteD, hd] using e.symm
    subst this
    simp [deleteD, hd]

example : okAll 10 [] demo ∧ ∀ op ∈ demo, Poisonless [op.node] := by simp [demo, okAll, Poisonless, Op.node]

/-- C91, heaps. Nothing else is refused: any of the three marks of a deleted node is enough to refuse a deletion. -/
theorem only_misuse_refused (cmp : Addr → Addr → Int) (s : State) (x : Addr) (fuel : Nat) :
    (s.left x = 0x500 ∨ s.right x = 0x510 ∨ s.parent x = 0x520 → deleteD cmp fuel s x = some s) ∧
    (s.left x ≠ 0x500 → s.right x ≠ 0x510 → s.parent x ≠ 0x520 → deleteD cmp fuel s x = delete cmp fuel s x) ∧
    ∀ p l, l.get s ≠ x → linkD s p l x = link s p l x := by
  refine ⟨fun e => ?_, fun h1 h2 h3 => by simp [deleteD, debugDelete, h1, h2, h3], fun p l e => by simp [linkD, debugLink, e]⟩
  rcases e with e | e | e <;> simp [deleteD, debugDelete, e]

end Bfdev.Heap

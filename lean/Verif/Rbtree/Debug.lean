import Verif.Rbtree.Props
/-!
The checks of `BFDEV_DEBUG_RBTREE`, which the default configuration turns on (CMakeLists.txt:62): `src/rbtree-debug.c` and the operations of `include/bfdev/rbtree.h`
that call them. A failed check is reported (not modelled) and the operation returns without touching memory.
-/
namespace Bfdev.Rbtree
variable {α : Type}

/-- `bfdev_rb_check_link`, rbtree-debug.c:14-28. -/
def debugLink (h : Heap α) (l : Link) (node : Addr) : Bool := if l.get h = node then false else true

/-- `bfdev_rb_check_delete`, rbtree-debug.c:30-61. -/
def debugDelete (h : Heap α) (node : Addr) : Bool :=
  if h.left node = 0x400 then false
  else if h.right node = 0x410 then false
  else if h.par node = 0x420 then false
  else true

/-- `bfdev_rb_link`, rbtree.h:615-630, with its check. -/
def linkD (h : Heap α) (parent : Addr) (l : Link) (node : Addr) : Heap α := if !debugLink h l node then h else link h parent l node

/-- `bfdev_rb_insert_node_augmented`, rbtree.h:697-704, and `bfdev_rb_insert_node`, 639-645, with the check in `bfdev_rb_link`: the tree is rebalanced in any case. -/
def insertNodeD (cb : Cb α) (fuel : Nat) (h : Heap α) (parent : Addr) (l : Link) (node : Addr) : Option (Heap α) :=
  fixup cb fuel (linkD h parent l node) node

/-- `bfdev_rb_insert_augmented`, rbtree.h:713-726, and `bfdev_rb_insert`, 653-665, with the check. -/
def insertD (cb : Cb α) (fuel : Nat) (h : Heap α) (node : Addr) (c : Addr → Int) : Option (Heap α × Bool) :=
  match parent h c fuel with
  | none => none
  | some none => some (h, false)
  | some (some (l, p, _)) => (insertNodeD cb fuel h p l node).map (·, true)

/-- `bfdev_rb_delete_augmented`, rbtree.h:734-751, and `bfdev_rb_delete`, 672-690, with their check. -/
def deleteD (cb : Cb α) (fuel : Nat) (h : Heap α) (node : Addr) : Option (Heap α) := if !debugDelete h node then some h else delete cb fuel h node

/-- A call as the default configuration compiles it. -/
def Op.runD (cmp : Addr → Addr → Int) (cb : Cb α) (fuel : Nat) (h : Heap α) : Op → Option (Heap α)
  | .insert x => (insertD cb fuel h x (cmp x)).map (·.1)
  | .delete x => deleteD cb fuel h x

def runAllD (cmp : Addr → Addr → Int) (cb : Cb α) (fuel : Nat) : List Op → Heap α → Option (Heap α)
  | [], h => some h
  | o :: os, h => (o.runD cmp cb fuel h).bind (runAllD cmp cb fuel os)

def Op.node : Op → Addr
  | .insert x | .delete x => x

/-- No node is at one of the three addresses deleted nodes point to. -/
def Poisonless (l : List Addr) : Prop := 0x400 ∉ l ∧ 0x410 ∉ l ∧ 0x420 ∉ l

theorem top_cases (t : Tree) : t.top = 0 ∨ t.top ∈ t.inorder := by
  cases t with
  | nil => exact .inl rfl
  | node l a c r => exact .inr (by simp [Tree.top, Tree.inorder])

/-- The links of a node of the tree are `NULL`, nodes of the tree, or (upwards) the parent of the tree. -/
theorem rep_links {h : Heap α} : ∀ {t : Tree} {p x : Addr}, Rep h p t → x ∈ t.inorder →
    (h.left x = 0 ∨ h.left x ∈ t.inorder) ∧ (h.right x = 0 ∨ h.right x ∈ t.inorder) ∧ (h.par x = p ∨ h.par x ∈ t.inorder) := by
  intro t
  induction t with
  | nil => intro p x _ hx; simp [Tree.inorder] at hx
  | node l a c r ihl ihr =>
    rintro p x ⟨-, h1, h2, h3, -, h5, h6⟩ hx
    simp only [Tree.inorder, List.mem_append, List.mem_cons] at hx ⊢
    rcases hx with hx | rfl | hx
    · obtain ⟨q1, q2, q3⟩ := ihl h5 hx
      grind
    · rw [h1, h2, h3]
      have := top_cases l
      have := top_cases r
      grind
    · obtain ⟨q1, q2, q3⟩ := ihr h6 hx
      grind

theorem deleteD_eq (cb : Cb α) {h : Heap α} {t : Tree} {x : Addr} {fuel : Nat} (hh : Holds h t) (hx : x ∈ t.inorder) (hp : Poisonless t.inorder) :
    deleteD cb fuel h x = delete cb fuel h x := by
  obtain ⟨q1, q2, q3⟩ := rep_links hh.2.1 hx
  have h1 : h.left x ≠ 0x400 := by
    intro e; rw [e] at q1
    rcases q1 with q | q
    · cases q
    · exact hp.1 q
  have h2 : h.right x ≠ 0x410 := by
    intro e; rw [e] at q2
    rcases q2 with q | q
    · cases q
    · exact hp.2.1 q
  have h3 : h.par x ≠ 0x420 := by
    intro e; rw [e] at q3
    rcases q3 with q | q
    · cases q
    · exact hp.2.2 q
  simp [deleteD, debugDelete, h1, h2, h3]

theorem linkD_empty {h : Heap α} {p : Addr} {l : Link} {x : Addr} (hl : l.get h = 0) (hx : x ≠ 0) : linkD h p l x = link h p l x := by
  simp [linkD, debugLink, hl, Ne.symm hx]

theorem insertD_eq (cb : Cb α) {cmp : Addr → Addr → Int} (o : Order cmp) {h : Heap α} {t : Tree} {x : Addr} {fuel : Nat} (hh : Holds h t) (hs : Ascending cmp t.inorder)
    (hx : x ≠ 0) (hf : t.height ≤ fuel) : insertD cb fuel h x (cmp x) = insert cb fuel h x (cmp x) := by
  obtain ⟨res, e, -, hr⟩ := parent_correct o (fuel := fuel) x hh hs hf
  unfold insertD insert
  rw [e]
  cases res with
  | none => rfl
  | some r =>
    obtain ⟨l, p, lm⟩ := r
    simp only [insertNodeD, insertNode]
    rw [linkD_empty (hr l p lm rfl).1 hx]

theorem runD_eq (cb : Cb α) {cmp : Addr → Addr → Int} (o : Order cmp) {h : Heap α} {t : Tree} {op : Op} {fuel : Nat} (hh : Holds h t) (hs : Ascending cmp t.inorder)
    (hok : op.ok t.inorder) (hp : Poisonless t.inorder) (hf : t.height ≤ fuel) : op.runD cmp cb fuel h = op.run cmp cb fuel h := by
  cases op with
  | insert x => rw [Op.runD, Op.run, insertD_eq cb o hh hs hok.1 hf]
  | delete x => exact deleteD_eq cb hh hok hp

theorem spec_nodes {cmp : Addr → Addr → Int} (op : Op) (L : List Addr) : ∀ z ∈ op.spec cmp L, z ∈ L ∨ z = op.node := by
  intro z hz
  cases op with
  | insert x =>
    simp only [Op.spec] at hz
    split at hz
    · exact .inl hz
    · simp only [List.mem_append, List.mem_cons, List.mem_filter] at hz
      simp only [Op.node]; grind
  | delete x => exact .inl (List.mem_of_mem_erase hz)

theorem checked_from (cb : Cb α) {cmp : Addr → Addr → Int} (o : Order cmp) : ∀ (ops : List Op) {h : Heap α} {t : Tree} {fuel : Nat},
    Holds h t → RedBlack t → Ascending cmp t.inorder → okAll cmp ops t.inorder → 2 * Nat.log2 (t.size + ops.length + 1) < fuel → Poisonless t.inorder →
    (∀ op ∈ ops, Poisonless [op.node]) → runAllD cmp cb fuel ops h = runAll cmp cb fuel ops h
  | [], _, _, _, _, _, _, _, _, _, _ => rfl
  | op :: ops, h, t, fuel, hh, hrb, hs, hok, hf, hp, ho => by
    have hb := height_bound hrb
    simp only [List.length_cons] at hf
    have hm : Nat.log2 (t.size + 1) ≤ Nat.log2 (t.size + (ops.length + 1) + 1) := (Nat.le_log2 (by omega)).2 (Nat.le_trans (Nat.log2_self_le (by omega)) (by omega))
    obtain ⟨h', t', e, q1, q2, q3, q4, q5⟩ := step_correct cb o (fuel := fuel) hh hrb hs hok.1 (by omega)
    have h1 := ho op (by simp)
    have hsub : ∀ z ∈ t'.inorder, z ∈ t.inorder ∨ z = op.node := by rw [q3]; exact spec_nodes op t.inorder
    have hp' : Poisonless t'.inorder := by
      refine ⟨fun z => ?_, fun z => ?_, fun z => ?_⟩
      · exact (hsub _ z).elim hp.1 (fun e => h1.1 (by simp [e]))
      · exact (hsub _ z).elim hp.2.1 (fun e => h1.2.1 (by simp [e]))
      · exact (hsub _ z).elim hp.2.2 (fun e => h1.2.2 (by simp [e]))
    have hm' : Nat.log2 (t'.size + ops.length + 1) ≤ Nat.log2 (t.size + (ops.length + 1) + 1) :=
      (Nat.le_log2 (by omega)).2 (Nat.le_trans (Nat.log2_self_le (by omega)) (by omega))
    simp only [runAllD, runAll]
    rw [runD_eq cb o hh hs hok.1 hp (by omega), e]
    exact checked_from cb o ops q1 q2 q4 (by rw [q3]; exact hok.2) (by omega) hp' (fun op hop => ho op (by simp [hop]))

/-- C91, red-black trees. From an empty tree, every history of allowed calls does with the checks exactly what it does without them, provided no node is at the addresses
0x400, 0x410 and 0x420; so C12 holds for the default configuration. -/
theorem checked_histories (cb : Cb α) {cmp : Addr → Addr → Int} (o : Order cmp) (ops : List Op) {h : Heap α} {fuel : Nat} (h0 : h.root = 0)
    (hok : okAll cmp ops []) (hf : 2 * Nat.log2 (ops.length + 1) < fuel) (hp : ∀ op ∈ ops, Poisonless [op.node]) :
    runAllD cmp cb fuel ops h = runAll cmp cb fuel ops h ∧
    ∃ h' t', runAllD cmp cb fuel ops h = some h' ∧ Holds h' t' ∧ t'.inorder = specAll cmp ops [] ∧ Ascending cmp t'.inorder ∧ RedBlack t' := by
  have e := checked_from cb o ops (t := .nil) (h := h) (fuel := fuel) ⟨h0, trivial, by simp [Tree.inorder]⟩ ⟨rfl, 0, rfl⟩ (by simp [Ascending, Tree.inorder]) hok
    (by simpa [Tree.size, Tree.inorder] using hf) (by simp [Poisonless, Tree.inorder]) hp
  obtain ⟨h', t', e', q1, q2, q3, q4, -⟩ := history_correct cb o ops h0 hok hf
  exact ⟨e, h', t', e.trans e', q1, q2, q3, q4⟩

/-- C91, red-black trees. In any memory whatever, a node that was deleted is not deleted again: memory is left as it is. -/
theorem misuse_refused (cb cb' : Cb α) (h h' : Heap α) (x : Addr) (fuel fuel' : Nat) (e : deleteD cb fuel h x = some h') : deleteD cb' fuel' h' x = some h' := by
  by_cases hd : debugDelete h x
  · simp only [deleteD, hd] at e
    have : h'.left x = 0x400 := by
      cases hr : remove cb fuel h x with
      | none => simp [delete, hr] at e
      | some r =>
        obtain ⟨h2, rb⟩ := r
        simp only [delete, hr, Bool.not_true, Bool.false_eq_true, if_false] at e
        obtain ⟨h3, -, e3⟩ := Option.map_eq_some_iff.1 e
        rw [← e3]
        simp [poison, Heap.setLeft, Heap.setRight, Heap.setPar, upd]
    simp [deleteD, debugDelete, this]
  · have : h' = h := by simpa [deleteD, hd] using e.symm
    subst this
    simp [deleteD, hd]

/-- C91, red-black trees. Nothing else is refused: any of the three marks of a deleted node is enough to refuse a deletion. -/
theorem only_misuse_refused (cb : Cb α) (h : Heap α) (x : Addr) (fuel : Nat) :
    (h.left x = 0x400 ∨ h.right x = 0x410 ∨ h.par x = 0x420 → deleteD cb fuel h x = some h) ∧
    (h.left x ≠ 0x400 → h.right x ≠ 0x410 → h.par x ≠ 0x420 → deleteD cb fuel h x = delete cb fuel h x) ∧
    ∀ p l, l.get h ≠ x → linkD h p l x = link h p l x := by
  refine ⟨fun e => ?_, fun h1 h2 h3 => by simp [deleteD, debugDelete, h1, h2, h3], fun p l e => by simp [linkD, debugLink, e]⟩
  rcases e with e | e | e <;> simp [deleteD, debugDelete, e]

end Bfdev.Rbtree

import Verif.Rbtree.Props
/-!
C123: how often a red-black tree is rotated, and how often the callbacks of an augmented tree are called.
-/
namespace Bfdev.Rbtree.Rotate
open Rbtree

/-! ## Specification -/

/-- A call of one of the callbacks of an augmented tree. -/
inductive Ev where
  | rotate (node successor : Addr)
  | copy (node successor : Addr)
  | propagate (node stop : Addr)
deriving DecidableEq, Repr

/-- Callbacks that only note that they were called, rbtree.h:43-47; the notes, the latest first, are kept at `NULL`, where no node is. -/
def traced : Cb (List Ev) where
  rotate h a b := upd h.aug 0 (.rotate a b :: h.aug 0)
  copy h a b := upd h.aug 0 (.copy a b :: h.aug 0)
  propagate h a b := upd h.aug 0 (.propagate a b :: h.aug 0)

/-- The calls noted so far. -/
def calls (h : Heap (List Ev)) : List Ev := h.aug 0

def isRotate : Ev → Bool | .rotate .. => true | _ => false
def isCopy : Ev → Bool | .copy .. => true | _ => false
def isPropagate : Ev → Bool | .propagate .. => true | _ => false

/-- The tree without what the callbacks keep. -/
def links {α : Type} (h : Heap α) : Heap Unit := ⟨h.par, h.left, h.right, h.black, fun _ => (), h.root⟩

/-! ## The callbacks do not matter to the tree -/

variable {α : Type}

theorem childChange_links (h : Heap α) (p o n : Addr) : links (childChange h p o n) = childChange (links h) p o n := by
  unfold childChange
  show _ = if p = 0 then _ else if h.left p = o then _ else _
  split
  · rfl
  · split <;> rfl

theorem rotateSet_links (cb : Cb α) (h : Heap α) (node newn child : Addr) (c cc : Option Bool) :
    links (rotateSet cb h node newn child c cc) = rotateSet Cb.dummy (links h) node newn child c cc := by
  unfold rotateSet
  dsimp only
  show links (childChange _ _ _ _) = _
  rw [childChange_links]
  cases c <;> cases cc <;> by_cases hc : child = 0 <;> simp only [hc, ne_eq, not_true_eq_false, not_false_eq_true, if_true, if_false] <;> rfl

theorem leftRotate_links (cb : Cb α) (h : Heap α) (node : Addr) (c cc : Option Bool) :
    (leftRotate cb h node c cc).map (fun r => (links r.1, r.2)) = leftRotate Cb.dummy (links h) node c cc := by
  unfold leftRotate
  dsimp only
  show _ = if h.right node = 0 then _ else _
  split
  · rfl
  · rw [Option.map_some, rotateSet_links]; rfl

theorem rightRotate_links (cb : Cb α) (h : Heap α) (node : Addr) (c cc : Option Bool) :
    (rightRotate cb h node c cc).map (fun r => (links r.1, r.2)) = rightRotate Cb.dummy (links h) node c cc := by
  unfold rightRotate
  dsimp only
  show _ = if h.left node = 0 then _ else _
  split
  · rfl
  · rw [Option.map_some, rotateSet_links]; rfl

theorem leftRotate_links1 (cb : Cb α) (h : Heap α) (node : Addr) (c cc : Option Bool) :
    ((leftRotate cb h node c cc).map (·.1)).map links = (leftRotate Cb.dummy (links h) node c cc).map (·.1) := by
  rw [← leftRotate_links cb h node c cc, Option.map_map, Option.map_map]; rfl

theorem rightRotate_links1 (cb : Cb α) (h : Heap α) (node : Addr) (c cc : Option Bool) :
    ((rightRotate cb h node c cc).map (·.1)).map links = (rightRotate Cb.dummy (links h) node c cc).map (·.1) := by
  rw [← rightRotate_links cb h node c cc, Option.map_map, Option.map_map]; rfl

theorem fixup_links (cb : Cb α) : ∀ (fuel : Nat) (h : Heap α) (x : Addr), (fixup cb fuel h x).map links = fixup Cb.dummy fuel (links h) x
  | 0, _, _ => rfl
  | fuel + 1, h, x => by
    rw [fixup, fixup]
    dsimp only
    have e1 : (links h).par = h.par := rfl
    have e2 : (links h).left = h.left := rfl
    have e3 : (links h).right = h.right := rfl
    have e4 : (links h).black = h.black := rfl
    rw [e1, e2, e3, e4]
    by_cases h1 : x = 0
    · rw [if_pos h1, if_pos h1]; rfl
    rw [if_neg h1, if_neg h1]
    by_cases h2 : h.par x = 0
    · rw [if_pos h2, if_pos h2]; rfl
    rw [if_neg h2, if_neg h2]
    by_cases h3 : h.black (h.par x) = true
    · rw [if_pos h3, if_pos h3]; rfl
    rw [if_neg h3, if_neg h3]
    by_cases h4 : h.par (h.par x) = 0
    · rw [if_pos h4, if_pos h4]; rfl
    rw [if_neg h4, if_neg h4]
    by_cases h5 : h.right (h.par (h.par x)) ≠ h.par x
    · rw [if_pos h5, if_pos h5]
      split
      · exact fixup_links cb fuel _ _
      · by_cases h6 : x = h.right (h.par x)
        · rw [if_pos h6, if_pos h6, ← leftRotate_links1 cb h]
          cases (leftRotate cb h (h.par x) none (some true)).map (·.1) with
          | none => rfl
          | some g => exact rightRotate_links1 cb g _ _ _
        · rw [if_neg h6, if_neg h6]
          exact rightRotate_links1 cb h _ _ _
    · rw [if_neg h5, if_neg h5]
      split
      · exact fixup_links cb fuel _ _
      · by_cases h6 : x = h.left (h.par x)
        · rw [if_pos h6, if_pos h6, ← rightRotate_links1 cb h]
          cases (rightRotate cb h (h.par x) none (some true)).map (·.1) with
          | none => rfl
          | some g => exact leftRotate_links1 cb g _ _ _
        · rw [if_neg h6, if_neg h6]
          exact leftRotate_links1 cb h _ _ _

/-- Dropping the data of the callbacks from the outcome of a round. -/
def nextLinks : EraseNext α → EraseNext Unit
  | .stop h => .stop (links h)
  | .again h n p => .again (links h) n p

theorem eraseFlip_links (h : Heap α) (s p : Addr) : nextLinks (eraseFlip h s p) = eraseFlip (links h) s p := by
  unfold eraseFlip
  dsimp only
  by_cases h1 : (h.setBlack s false).black p = false
  · rw [if_pos h1, if_pos (show ((links h).setBlack s false).black p = false from h1)]; rfl
  · rw [if_neg h1, if_neg (show ¬ ((links h).setBlack s false).black p = false from h1)]
    by_cases h2 : (h.setBlack s false).par p = 0
    · rw [if_pos h2, if_pos (show ((links h).setBlack s false).par p = 0 from h2)]; rfl
    · rw [if_neg h2, if_neg (show ¬ ((links h).setBlack s false).par p = 0 from h2)]; rfl

theorem eraseLeft_links (cb : Cb α) (h : Heap α) (s p : Addr) : (eraseLeft cb h s p).map nextLinks = eraseLeft Cb.dummy (links h) s p := by
  unfold eraseLeft
  dsimp only
  have e2 : (links h).left = h.left := rfl
  have e3 : (links h).right = h.right := rfl
  have e4 : ∀ a, isBlackOrNull (links h) a = isBlackOrNull h a := fun _ => rfl
  rw [e2, e3, e4, e4]
  split
  · rfl
  · split
    · split
      · rw [Option.map_some, eraseFlip_links]
      · rw [← rightRotate_links cb h]
        cases rightRotate cb h s none (some true) with
        | none => rfl
        | some r =>
          simp only [Option.map_some, Option.bind_eq_bind, Option.bind_some]
          rw [← leftRotate_links cb r.1]
          cases leftRotate cb r.1 p (some true) none <;> rfl
    · rw [← leftRotate_links cb h]
      cases leftRotate cb h p (some true) none <;> rfl

theorem eraseRight_links (cb : Cb α) (h : Heap α) (s p : Addr) : (eraseRight cb h s p).map nextLinks = eraseRight Cb.dummy (links h) s p := by
  unfold eraseRight
  dsimp only
  have e2 : (links h).left = h.left := rfl
  have e3 : (links h).right = h.right := rfl
  have e4 : ∀ a, isBlackOrNull (links h) a = isBlackOrNull h a := fun _ => rfl
  rw [e2, e3, e4, e4]
  split
  · rfl
  · split
    · split
      · rw [Option.map_some, eraseFlip_links]
      · rw [← leftRotate_links cb h]
        cases leftRotate cb h s none (some true) with
        | none => rfl
        | some r =>
          simp only [Option.map_some, Option.bind_eq_bind, Option.bind_some]
          rw [← rightRotate_links cb r.1]
          cases rightRotate cb r.1 p (some true) none <;> rfl
    · rw [← rightRotate_links cb h]
      cases rightRotate cb h p (some true) none <;> rfl

theorem eraseStep_links (cb : Cb α) (h : Heap α) (n p : Addr) : (eraseStep cb h n p).map nextLinks = eraseStep Cb.dummy (links h) n p := by
  unfold eraseStep
  dsimp only
  have e2 : (links h).left = h.left := rfl
  have e3 : (links h).right = h.right := rfl
  have e4 : (links h).black = h.black := rfl
  rw [e2, e3, e4]
  split
  · split
    · rfl
    · split
      · rw [← leftRotate_links cb h]
        cases leftRotate cb h p (some false) (some true) with
        | none => rfl
        | some r => exact eraseLeft_links cb r.1 r.2 p
      · exact eraseLeft_links cb h _ p
  · split
    · rfl
    · split
      · rw [← rightRotate_links cb h]
        cases rightRotate cb h p (some false) (some true) with
        | none => rfl
        | some r => exact eraseRight_links cb r.1 r.2 p
      · exact eraseRight_links cb h _ p

theorem eraseLoop_links (cb : Cb α) : ∀ (fuel : Nat) (h : Heap α) (n p : Addr), (eraseLoop cb fuel h n p).map links = eraseLoop Cb.dummy fuel (links h) n p
  | 0, _, _, _ => rfl
  | fuel + 1, h, n, p => by
    rw [eraseLoop, eraseLoop, ← eraseStep_links cb h]
    split
    · rfl
    · cases eraseStep cb h n p with
      | none => rfl
      | some r =>
        cases r with
        | stop g => rfl
        | again g n p => exact eraseLoop_links cb fuel g n p

theorem succLoop_links (h : Heap α) : ∀ (fuel : Nat) (s c : Addr), succLoop h fuel s c = succLoop (links h) fuel s c
  | 0, _, _ => rfl
  | fuel + 1, s, c => by
    rw [succLoop, succLoop]
    rw [show (links h).left = h.left from rfl]
    split
    · exact succLoop_links h fuel _ _
    · rfl

theorem removeFinish_links (h : Heap α) (n s p t : Addr) : (links (removeFinish h n s p t).1, (removeFinish h n s p t).2) = removeFinish (links h) n s p t := by
  unfold removeFinish
  dsimp only
  have e : ∀ g : Heap α, ∀ a v, (links g).setPar a v = links (g.setPar a v) := fun _ _ _ => rfl
  have e' : ∀ g : Heap α, ∀ a v, (links g).setLeft a v = links (g.setLeft a v) := fun _ _ _ => rfl
  rw [e', show (links h).left n = h.left n from rfl, e, show (links ((h.setLeft s (h.left n)).setPar (h.left n) s)).par n = ((h.setLeft s (h.left n)).setPar (h.left n) s).par n from rfl, ← childChange_links]
  generalize childChange ((h.setLeft s (h.left n)).setPar (h.left n) s) _ n s = g
  rw [show (links g).black = g.black from rfl]
  by_cases h1 : t ≠ 0
  · rw [if_pos h1, if_pos h1]; rfl
  · rw [if_neg h1, if_neg h1]
    by_cases h2 : g.black s = true
    · rw [if_pos h2, if_pos h2]; rfl
    · rw [if_neg h2, if_neg h2]; rfl

theorem remove_links (cb : Cb α) (fuel : Nat) (h : Heap α) (n : Addr) : (remove cb fuel h n).map (fun r => (links r.1, r.2)) = remove Cb.dummy fuel (links h) n := by
  unfold remove
  dsimp only
  have e1 : (links h).par = h.par := rfl
  have e2 : (links h).left = h.left := rfl
  have e3 : (links h).right = h.right := rfl
  have e4 : (links h).black = h.black := rfl
  have d : ∀ (g : Heap Unit) a b, Cb.dummy.doPropagate g a b = g := fun _ _ _ => rfl
  have d' : ∀ (g : Heap Unit) a b, Cb.dummy.doCopy g a b = g := fun _ _ _ => rfl
  have l : ∀ (g : Heap α) a b, links (cb.doPropagate g a b) = links g := fun _ _ _ => rfl
  have l' : ∀ (g : Heap α) a b, links (cb.doCopy g a b) = links g := fun _ _ _ => rfl
  simp only [e1, e2, e3, e4, d, d', ← succLoop_links]
  split
  · simp only [Option.map_some, l, childChange_links]
  · split
    · simp only [Option.map_some, l, childChange_links]; rfl
    · split
      · simp only [Option.map_some, l, childChange_links]; rfl
      · split
        · rw [Option.map_some, l]
          exact congrArg some (removeFinish_links (cb.doCopy h n (h.right n)) _ _ _ _)
        · cases succLoop h fuel (h.right n) (h.left (h.right n)) with
          | none => rfl
          | some r =>
            rw [Option.map_some, l]
            exact congrArg some (removeFinish_links _ _ _ _ _)

theorem parentLoop_links (h : Heap α) (c : Addr → Int) : ∀ (fuel : Nat) (l : Link) (b : Bool), parentLoop h c fuel l b = parentLoop (links h) c fuel l b
  | 0, _, _ => rfl
  | fuel + 1, l, b => by
    have e : l.get (links h) = l.get h := by cases l <;> rfl
    rw [parentLoop, parentLoop, e, show (links h).left = h.left from rfl, show (links h).right = h.right from rfl]
    rw [parentLoop_links h c fuel (.left (l.get h)) b, parentLoop_links h c fuel (.right (l.get h)) false]

/-- The tree is the same whatever the callbacks are. -/
theorem run_links (cmp : Addr → Addr → Int) (cb : Cb α) (fuel : Nat) (h : Heap α) (op : Op) : (op.run cmp cb fuel h).map links = op.run cmp Cb.dummy fuel (links h) := by
  cases op with
  | insert x =>
    show Option.map links ((insert cb fuel h x (cmp x)).map (·.1)) = (insert Cb.dummy fuel (links h) x (cmp x)).map (·.1)
    unfold insert parent
    rw [show (links h).root = h.root from rfl, ← parentLoop_links]
    cases (if h.root = 0 then some (some (Link.root, 0, true)) else parentLoop h (cmp x) fuel Link.root true) with
    | none => rfl
    | some r =>
      cases r with
      | none => rfl
      | some r =>
        obtain ⟨l, p, b⟩ := r
        dsimp only
        unfold insertNode
        have e : link (links h) p l x = links (link h p l x) := by cases l <;> rfl
        rw [e, ← fixup_links cb]
        cases fixup cb fuel (link h p l x) x <;> rfl
  | delete x =>
    show Option.map links (delete cb fuel h x) = delete Cb.dummy fuel (links h) x
    unfold delete
    rw [← remove_links cb]
    cases remove cb fuel h x with
    | none => rfl
    | some r =>
      obtain ⟨g, reb⟩ := r
      dsimp only [Option.map_some]
      split
      · unfold erase
        rw [← eraseLoop_links cb]
        cases eraseLoop cb fuel g 0 reb <;> rfl
      · rfl

theorem runAll_links (cmp : Addr → Addr → Int) (cb : Cb α) (fuel : Nat) : ∀ (ops : List Op) (h : Heap α), (runAll cmp cb fuel ops h).map links = runAll cmp Cb.dummy fuel ops (links h)
  | [], _ => rfl
  | op :: ops, h => by
    rw [runAll, runAll, ← run_links cmp cb]
    cases op.run cmp cb fuel h with
    | none => rfl
    | some g => exact runAll_links cmp cb fuel ops g

/-! ## Counting -/

/-- From `h` to `g` at most `n` calls were made, all of `rotate`. -/
def Rot (n : Nat) (h g : Heap (List Ev)) : Prop := ∃ evs, calls g = evs ++ calls h ∧ evs.length ≤ n ∧ ∀ e ∈ evs, isRotate e = true

theorem Rot.same {n : Nat} {h g : Heap (List Ev)} (e : calls g = calls h) : Rot n h g := ⟨[], e, Nat.zero_le _, by simp⟩

theorem Rot.trans {n m : Nat} {h g f : Heap (List Ev)} : Rot n h g → Rot m g f → Rot (n + m) h f
  | ⟨a, ha, la, aa⟩, ⟨b, hb, lb, bb⟩ => ⟨b ++ a, by rw [hb, ha, List.append_assoc], by rw [List.length_append]; omega, by
      intro e he
      rcases List.mem_append.1 he with he | he
      · exact bb e he
      · exact aa e he⟩

theorem Rot.mono {n m : Nat} {h g : Heap (List Ev)} (le : n ≤ m) : Rot n h g → Rot m h g
  | ⟨a, ha, la, aa⟩ => ⟨a, ha, Nat.le_trans la le, aa⟩

theorem childChange_calls (h : Heap (List Ev)) (p o n : Addr) : calls (childChange h p o n) = calls h := by
  unfold childChange calls
  split
  · rfl
  · split <;> rfl

theorem rotateSet_calls (h : Heap (List Ev)) (node newn child : Addr) (c cc : Option Bool) :
    calls (rotateSet traced h node newn child c cc) = .rotate node newn :: calls h := by
  unfold rotateSet
  dsimp only
  have e : ∀ g : Heap (List Ev), calls (traced.doRotate g node newn) = .rotate node newn :: calls g := fun _ => rfl
  rw [e, childChange_calls]
  cases c <;> cases cc <;> by_cases hc : child = 0 <;> simp only [hc, ne_eq, not_true_eq_false, not_false_eq_true, if_true, if_false] <;> rfl

theorem leftRotate_calls {h g : Heap (List Ev)} {node c1 : Addr} {c cc : Option Bool} (e : leftRotate traced h node c cc = some (g, c1)) : Rot 1 h g := by
  unfold leftRotate at e
  dsimp only at e
  split at e
  · cases e
  · cases e
    exact ⟨[_], rotateSet_calls _ _ _ _ _ _, Nat.le_refl _, by simp [isRotate]⟩

theorem rightRotate_calls {h g : Heap (List Ev)} {node c1 : Addr} {c cc : Option Bool} (e : rightRotate traced h node c cc = some (g, c1)) : Rot 1 h g := by
  unfold rightRotate at e
  dsimp only at e
  split at e
  · cases e
  · cases e
    exact ⟨[_], rotateSet_calls _ _ _ _ _ _, Nat.le_refl _, by simp [isRotate]⟩

theorem left1 {h g : Heap (List Ev)} {node : Addr} {c cc : Option Bool} (e : (leftRotate traced h node c cc).map (·.1) = some g) : Rot 1 h g := by
  rw [Option.map_eq_some_iff] at e
  obtain ⟨⟨a, b⟩, e, rfl⟩ := e
  exact leftRotate_calls e

theorem right1 {h g : Heap (List Ev)} {node : Addr} {c cc : Option Bool} (e : (rightRotate traced h node c cc).map (·.1) = some g) : Rot 1 h g := by
  rw [Option.map_eq_some_iff] at e
  obtain ⟨⟨a, b⟩, e, rfl⟩ := e
  exact rightRotate_calls e

theorem fixup_calls : ∀ (fuel : Nat) {h g : Heap (List Ev)} {x : Addr}, fixup traced fuel h x = some g → Rot 2 h g
  | 0, _, _, _, e => by cases e
  | fuel + 1, h, g, x, e => by
    rw [fixup] at e
    dsimp only at e
    split at e
    · cases e; exact Rot.same rfl
    split at e
    · cases e; exact Rot.same rfl
    split at e
    · cases e; exact Rot.same rfl
    split at e
    · cases e
    split at e
    · split at e
      · have := fixup_calls fuel e
        exact this
      · split at e
        · rw [Option.bind_eq_bind, Option.bind_eq_some_iff] at e
          obtain ⟨k, e1, e2⟩ := e
          exact (left1 e1).trans (right1 e2)
        · exact (right1 e).mono (by omega)
    · split at e
      · have := fixup_calls fuel e
        exact this
      · split at e
        · rw [Option.bind_eq_bind, Option.bind_eq_some_iff] at e
          obtain ⟨k, e1, e2⟩ := e
          exact (right1 e1).trans (left1 e2)
        · exact (left1 e).mono (by omega)

/-- What a round of the loop of a deletion does: it stops after at most `n` rotations, or goes on without any. -/
def Round (n : Nat) (h : Heap (List Ev)) : EraseNext (List Ev) → Prop
  | .stop g => Rot n h g
  | .again g _ _ => calls g = calls h

theorem flip_calls (h : Heap (List Ev)) (s p : Addr) (n : Nat) : Round n h (eraseFlip h s p) ∧ (h.black p = false → ∃ g, eraseFlip h s p = .stop g) := by
  unfold eraseFlip
  dsimp only
  constructor
  · split
    · exact Rot.same rfl
    · split
      · exact Rot.same rfl
      · rfl
  · intro hb
    rw [if_pos]
    · exact ⟨_, rfl⟩
    · show upd h.black s false p = false
      unfold upd
      split
      · rfl
      · exact hb

theorem eraseLeft_calls {h : Heap (List Ev)} {s p : Addr} {r : EraseNext (List Ev)} (e : eraseLeft traced h s p = some r) : Round 2 h r ∧ (h.black p = false → ∃ g, r = .stop g) := by
  unfold eraseLeft at e
  dsimp only at e
  split at e
  · cases e
  split at e
  · split at e
    · cases e; exact flip_calls h s p 2
    · simp only [Option.bind_eq_bind, Option.bind_eq_some_iff] at e
      obtain ⟨⟨a, a'⟩, e1, ⟨b, b'⟩, e2, e3⟩ := e
      cases e3
      refine ⟨?_, fun _ => ⟨_, rfl⟩⟩
      have := (rightRotate_calls e1).trans (leftRotate_calls e2)
      exact this
  · simp only [Option.bind_eq_bind, Option.bind_eq_some_iff] at e
    obtain ⟨⟨a, a'⟩, e1, e3⟩ := e
    cases e3
    exact ⟨(leftRotate_calls e1).mono (by omega), fun _ => ⟨_, rfl⟩⟩

theorem eraseRight_calls {h : Heap (List Ev)} {s p : Addr} {r : EraseNext (List Ev)} (e : eraseRight traced h s p = some r) : Round 2 h r ∧ (h.black p = false → ∃ g, r = .stop g) := by
  unfold eraseRight at e
  dsimp only at e
  split at e
  · cases e
  split at e
  · split at e
    · cases e; exact flip_calls h s p 2
    · simp only [Option.bind_eq_bind, Option.bind_eq_some_iff] at e
      obtain ⟨⟨a, a'⟩, e1, ⟨b, b'⟩, e2, e3⟩ := e
      cases e3
      refine ⟨?_, fun _ => ⟨_, rfl⟩⟩
      have := (leftRotate_calls e1).trans (rightRotate_calls e2)
      exact this
  · simp only [Option.bind_eq_bind, Option.bind_eq_some_iff] at e
    obtain ⟨⟨a, a'⟩, e1, e3⟩ := e
    cases e3
    exact ⟨(rightRotate_calls e1).mono (by omega), fun _ => ⟨_, rfl⟩⟩

theorem rotateSet_red {cb : Cb α} {h : Heap α} {node newn child : Addr} (hc : child ≠ node) : (rotateSet cb h node newn child (some false) (some true)).black node = false := by
  unfold rotateSet
  dsimp only
  show (childChange _ _ _ _).black node = false
  rw [cc_black]
  by_cases h0 : child = 0
  · simp [h0, Heap.setBlack, Heap.setPar, upd]
  · simp [h0, Heap.setBlack, Heap.setPar, upd, Ne.symm hc]

theorem eraseStep_calls {h : Heap (List Ev)} {n p : Addr} {r : EraseNext (List Ev)} (e : eraseStep traced h n p = some r)
    (hl : h.right p ≠ 0 → h.left (h.right p) ≠ p) (hr : h.left p ≠ 0 → h.right (h.left p) ≠ p) : Round 3 h r := by
  unfold eraseStep at e
  dsimp only at e
  have up : ∀ {k : Heap (List Ev)} {r : EraseNext (List Ev)}, Rot 1 h k → Round 2 k r ∧ (k.black p = false → ∃ g, r = .stop g) → k.black p = false → Round 3 h r := by
    rintro k r h1 ⟨h2, h3⟩ h4
    obtain ⟨g, rfl⟩ := h3 h4
    have := Rot.trans h1 h2
    exact this
  have same : ∀ {r : EraseNext (List Ev)}, Round 2 h r → Round 3 h r := by
    intro r h2
    cases r with
    | stop g => exact Rot.mono (by omega) h2
    | again g _ _ => exact h2
  split at e
  · split at e
    · cases e
    · rename_i h0
      split at e
      · simp only [Option.bind_eq_bind, Option.bind_eq_some_iff] at e
        obtain ⟨⟨k, c⟩, e1, e2⟩ := e
        refine up (leftRotate_calls e1) (eraseLeft_calls e2) ?_
        unfold leftRotate at e1
        dsimp only at e1
        rw [if_neg h0] at e1
        cases e1
        exact rotateSet_red (hl h0)
      · exact same (eraseLeft_calls e).1
  · split at e
    · cases e
    · rename_i h0
      split at e
      · simp only [Option.bind_eq_bind, Option.bind_eq_some_iff] at e
        obtain ⟨⟨k, c⟩, e1, e2⟩ := e
        refine up (rightRotate_calls e1) (eraseRight_calls e2) ?_
        unfold rightRotate at e1
        dsimp only at e1
        rw [if_neg h0] at e1
        cases e1
        exact rotateSet_red (hr h0)
      · exact same (eraseRight_calls e).1

/-- A grandchild of a node is not the node. -/
theorem grandchild {h : Heap α} {k : Ctx} {l r : Tree} {p : Addr} {c : Bool} (hat : At h k (.node l p c r)) : (h.right p ≠ 0 → h.left (h.right p) ≠ p) ∧ (h.left p ≠ 0 → h.right (h.left p) ≠ p) := by
  obtain ⟨_, ⟨p1, p2, p3, p4, p5, p6, p7⟩, hnd⟩ := hat
  simp only [Tree.inorder, List.nodup_append, List.nodup_cons, List.mem_append, List.mem_cons] at hnd
  constructor
  · intro h0 e
    rw [p4] at h0 e
    cases r with
    | nil => exact h0 rfl
    | node a s b d =>
      obtain ⟨s1, s2, s3, s4, s5, s6, s7⟩ := p7
      rw [show (Tree.node a s b d).top = s from rfl, s3] at e
      have : p ∈ a.inorder := by rw [← e]; exact top_mem (by rw [e]; exact p1)
      exact hnd.1.2.1.2.1.1 (by simp [Tree.inorder, this])
  · intro h0 e
    rw [p3] at h0 e
    cases l with
    | nil => exact h0 rfl
    | node a s b d =>
      obtain ⟨s1, s2, s3, s4, s5, s6, s7⟩ := p6
      rw [show (Tree.node a s b d).top = s from rfl, s4] at e
      have : p ∈ d.inorder := by rw [← e]; exact top_mem (by rw [e]; exact p1)
      exact hnd.1.2.1.2.2 p (by simp [Tree.inorder, this]) p (Or.inl rfl) rfl

theorem erase_calls : ∀ (fuel : Nat) (k : Ctx) {h : Heap (List Ev)} {t : Tree} {n : Nat} {g : Heap (List Ev)},
    At h k t → k ≠ [] → RB t n → t.isBlack = true → OKC k (n + 1) → eraseLoop traced fuel h t.top (up k) = some g → Rot 3 h g
  | 0, _, _, _, _, _, _, _, _, _, _, e => by cases e
  | fuel + 1, [], _, _, _, _, _, hk0, _, _, _, _ => absurd rfl hk0
  | fuel + 1, ⟨d, p, cp, S⟩ :: k, h, t, n, g, hat, _, ht, htb, hk, e => by
    have hres : StepDone (eraseStep traced h t.top p) h (plug (⟨d, p, cp, S⟩ :: k) t).inorder p cp k n := by
      cases d
      · exact eraseStep_right traced (at_down_right.2 hat) ht htb hk rfl
      · exact eraseStep_left traced (at_down_left.2 hat) ht htb hk rfl
    have hg : (h.right p ≠ 0 → h.left (h.right p) ≠ p) ∧ (h.left p ≠ 0 → h.right (h.left p) ≠ p) := by
      cases d
      · exact grandchild (at_down_right.2 hat)
      · exact grandchild (at_down_left.2 hat)
    have hp : p ≠ 0 := by
      obtain ⟨hk0, _, _⟩ := hat
      cases d <;> exact hk0.1
    rw [show up (⟨d, p, cp, S⟩ :: k) = p from rfl, eraseLoop, if_neg hp] at e
    rcases hres with ⟨h2, t2, q1, q2, q3, q4, q5⟩ | ⟨h2, l2, r2, q1, _, q2, q3, q4, q5, q6, q7⟩
    · rw [q1] at e
      cases e
      exact eraseStep_calls q1 hg.1 hg.2
    · rw [q1] at e
      have h1 : calls h2 = calls h := eraseStep_calls q1 hg.1 hg.2
      obtain ⟨evs, a, b, c⟩ := erase_calls fuel k q3 q2 q5 rfl q6 e
      exact ⟨evs, by rw [a, h1], b, c⟩

/-- The calls a deletion makes before it rebalances: at most one `copy`, at most two `propagate`, no `rotate`. -/
theorem remove_calls {fuel : Nat} {h g : Heap (List Ev)} {x reb : Addr} (e : remove traced fuel h x = some (g, reb)) :
    ∃ evs, calls g = evs ++ calls h ∧ evs.countP isRotate = 0 ∧ evs.countP isCopy ≤ 1 ∧ evs.countP isPropagate ≤ 2 := by
  have p : ∀ (g : Heap (List Ev)) a b, calls (traced.doPropagate g a b) = .propagate a b :: calls g := fun _ _ _ => rfl
  have c : ∀ (g : Heap (List Ev)) a b, calls (traced.doCopy g a b) = .copy a b :: calls g := fun _ _ _ => rfl
  have f : ∀ (g : Heap (List Ev)) n s p t, calls (removeFinish g n s p t).1 = calls g := by
    intro g n s p t
    unfold calls
    rw [removeFinish_aug]
  unfold remove at e
  dsimp only at e
  split at e
  · cases e
    exact ⟨[_], by rw [p, childChange_calls]; rfl, by simp [isRotate, isCopy, isPropagate]⟩
  split at e
  · cases e
    exact ⟨[_], by rw [p, childChange_calls]; rfl, by simp [isRotate, isCopy, isPropagate]⟩
  split at e
  · cases e
    exact ⟨[_], by rw [p, childChange_calls]; rfl, by simp [isRotate, isCopy, isPropagate]⟩
  split at e
  · cases e
    exact ⟨[_, _], by rw [p, f, c]; rfl, by simp [isRotate, isCopy, isPropagate, List.countP_cons]⟩
  split at e
  · cases e
  · cases e
    exact ⟨[_, _, _], by rw [p, f, p, c]; rfl, by simp [isRotate, isCopy, isPropagate, List.countP_cons]⟩

theorem Rot.counts {n : Nat} {h g : Heap (List Ev)} : Rot n h g → ∃ evs, calls g = evs ++ calls h ∧ evs.countP isRotate ≤ n ∧ evs.countP isCopy = 0 ∧ evs.countP isPropagate = 0
  | ⟨evs, e, l, a⟩ => ⟨evs, e, Nat.le_trans List.countP_le_length l, by
      rw [List.countP_eq_zero]
      intro x hx
      have := a x hx
      cases x <;> simp_all [isRotate, isCopy], by
      rw [List.countP_eq_zero]
      intro x hx
      have := a x hx
      cases x <;> simp_all [isRotate, isPropagate]⟩

/-- How many calls of the callbacks an operation may make. -/
def Allowed (evs : List Ev) : Op → Prop
  | .insert _ => evs.countP isRotate ≤ 2 ∧ evs.countP isCopy = 0 ∧ evs.countP isPropagate = 0
  | .delete _ => evs.countP isRotate ≤ 3 ∧ evs.countP isCopy ≤ 1 ∧ evs.countP isPropagate ≤ 2

theorem run_calls {cmp : Addr → Addr → Int} {h g : Heap (List Ev)} {t : Tree} {op : Op} {fuel : Nat} (hh : Holds h t) (hrb : RedBlack t) (hp : op.ok t.inorder) (hf : t.height < fuel)
    (e : op.run cmp traced fuel h = some g) : ∃ evs, calls g = evs ++ calls h ∧ Allowed evs op := by
  cases op with
  | insert x =>
    replace e : (insert traced fuel h x (cmp x)).map (·.1) = some g := e
    unfold insert at e
    split at e
    · cases e
    · cases e
      exact ⟨[], rfl, by simp [Allowed]⟩
    · rename_i l p b _
      rw [Option.map_map, Option.map_eq_some_iff] at e
      obtain ⟨g', e, rfl⟩ := e
      obtain ⟨evs, a1, a2, a3, a4⟩ := (fixup_calls fuel e).counts
      refine ⟨evs, ?_, a2, a3, a4⟩
      refine a1.trans (congrArg (evs ++ ·) ?_)
      cases l <;> rfl
  | delete x =>
    replace e : delete traced fuel h x = some g := e
    obtain ⟨k, l, c, r, rfl⟩ := exists_ctx t hp
    have hat := at_iff.2 hh
    obtain ⟨h2, reb, e1, ho, hR⟩ := remove_at (fuel := fuel) traced hat hrb (by omega)
    obtain ⟨ev1, b1, b2, b3, b4⟩ := remove_calls e1
    unfold delete at e
    rw [e1] at e
    dsimp only at e
    rw [Option.map_eq_some_iff] at e
    obtain ⟨g', e, rfl⟩ := e
    have hrot : Rot 3 h2 g' := by
      split at e
      · rename_i h0
        rcases hR with ⟨q, _⟩ | ⟨k2, q1, q2, q3, q4, q5, q6⟩
        · exact absurd q h0
        · rw [q2] at e
          exact erase_calls fuel k2 (t := .nil) (n := 0) q3 q1 rfl rfl q4 e
      · cases e; exact Rot.same rfl
    obtain ⟨ev2, c1, c2, c3, c4⟩ := hrot.counts
    refine ⟨ev2 ++ ev1, ?_, ?_, ?_, ?_⟩
    · show calls g' = _
      rw [c1, b1, List.append_assoc]
    all_goals
      rw [List.countP_append]; omega

theorem filter_le (f : Addr → Int) : ∀ L : List Addr, (L.filter fun a => 0 < f a).length + (L.filter fun a => f a < 0).length ≤ L.length
  | [] => by simp
  | a :: L => by
    have := filter_le f L
    rcases Int.lt_trichotomy (f a) 0 with h | h | h
    · rw [List.filter_cons_of_neg (by simp; omega), List.filter_cons_of_pos (by simpa using h)]
      simp only [List.length_cons]; omega
    · rw [List.filter_cons_of_neg (by simp; omega), List.filter_cons_of_neg (by simp; omega)]
      simp only [List.length_cons]; omega
    · rw [List.filter_cons_of_pos (by simpa using h), List.filter_cons_of_neg (by simp; omega)]
      simp only [List.length_cons]; omega

theorem specAll_le (cmp : Addr → Addr → Int) : ∀ (ops : List Op) (L : List Addr), (specAll cmp ops L).length ≤ L.length + ops.length
  | [], L => Nat.le_refl _
  | op :: ops, L => by
    have h1 := specAll_le cmp ops (op.spec cmp L)
    have h2 : (op.spec cmp L).length ≤ L.length + 1 := by
      cases op with
      | insert x =>
        unfold Op.spec
        dsimp only
        split
        · omega
        · have := filter_le (cmp x) L
          rw [List.length_append, List.length_cons]; omega
      | delete x => exact Nat.le_trans List.length_erase_le (by omega)
    rw [specAll, List.length_cons]; omega

/-- **C123.** After any history of allowed insertions and deletions, an insertion rotates the tree at most twice and calls no other callback; a deletion rotates at most three times,
copies at most once and propagates at most twice. -/
theorem few_rotations {cmp : Addr → Addr → Int} (o : Order cmp) (ops : List Op) (op : Op) {h : Heap (List Ev)} {fuel : Nat} (h0 : h.root = 0)
    (hok : okAll cmp ops []) (hp : op.ok (specAll cmp ops [])) (hf : 2 * Nat.log2 (ops.length + 1) < fuel) :
    ∃ h1 h2 evs, runAll cmp traced fuel ops h = some h1 ∧ op.run cmp traced fuel h1 = some h2 ∧ calls h2 = evs ++ calls h1 ∧ Allowed evs op := by
  obtain ⟨h1, t1, e1, q1, q2, q3, q4, q5⟩ := history_correct traced o ops h0 hok hf
  have hlen : t1.height < fuel := by
    have hs : t1.size ≤ ops.length := by
      have := specAll_le cmp ops []
      rw [← q2] at this
      simpa [Tree.size] using this
    have : Nat.log2 (t1.size + 1) ≤ Nat.log2 (ops.length + 1) := (Nat.le_log2 (by omega)).2 (Nat.le_trans (Nat.log2_self_le (by omega)) (by omega))
    omega
  obtain ⟨h2, t2, e2, _⟩ := step_correct traced o q1 q4 q3 (by rw [q2]; exact hp) hlen
  obtain ⟨evs, a, b⟩ := run_calls q1 q4 (by rw [q2]; exact hp) hlen e2
  exact ⟨h1, h2, evs, e1, e2, a, b⟩

/-- An empty tree, nothing noted. -/
def bare : Heap (List Ev) := ⟨fun _ => 0, fun _ => 0, fun _ => 0, fun _ => false, fun _ => [], 0⟩

/-- The bounds are reached: the third insertion rotates twice, the deletion three times. -/
example : ((runAll (fun a b => (a : Int) - b) traced 9 [.insert 10, .insert 30, .insert 20] bare).map calls = some [.rotate 10 20, .rotate 30 20]) ∧
    ((runAll (fun a b => (a : Int) - b) traced 9 [.insert 2, .insert 25, .insert 1, .insert 37, .insert 26, .insert 13] bare).bind fun h =>
      ((Op.delete 1).run (fun a b => (a : Int) - b) traced 9 h).map fun g => ((calls g).countP isRotate - (calls h).countP isRotate)) = some 3 := by
  refine ⟨?_, ?_⟩ <;> decide +kernel

/-- A history that `few_rotations` speaks of. -/
example : Order (fun a b => (a : Int) - b) ∧ okAll (fun a b => (a : Int) - b) [.insert 10, .insert 30, .delete 10] [] ∧
    (Op.insert 20).ok (specAll (fun a b => (a : Int) - b) [.insert 10, .insert 30, .delete 10] []) := by
  refine ⟨⟨fun a b => by omega, fun a b c => by omega⟩, ?_, ?_⟩
  · simp [okAll, Op.ok, Op.spec]
  · simp [specAll, Op.ok, Op.spec]

end Bfdev.Rbtree.Rotate

/-!
Model of the red-black tree, /repo/src/rbtree.c, /repo/include/bfdev/rbtree.h, and of the tree iteration macros of
/repo/include/bfdev/titer.h as instantiated at rbtree.c:641-662.

Memory is a heap of nodes with the four fields of `struct bfdev_rb_node` (rbtree.h:27-32) and one tree root; addresses are
naturals and `NULL` is 0. Reading a field of `NULL` (where the code can reach such a read) is the outcome `none`, and so is a loop
that does not stop within its fuel. `aug` stands for whatever the callbacks of an augmented tree keep in the node.
-/
namespace Bfdev.Rbtree

abbrev Addr := Nat

/-- The nodes of memory and `root->node` (rbtree.h:27-36); `black` is the field `color` (`BFDEV_RB_RED` 0, `BFDEV_RB_BLACK` 1, rbtree.h:18-19). -/
structure Heap (α : Type) where
  par : Addr → Addr
  left : Addr → Addr
  right : Addr → Addr
  black : Addr → Bool
  aug : Addr → α
  root : Addr

/-- Writing one field of one node. -/
def upd {β : Type} (f : Addr → β) (a : Addr) (v : β) : Addr → β := fun b => if b = a then v else f b

namespace Heap
variable {α : Type}
/-- `a->parent = v`. -/
def setPar (h : Heap α) (a v : Addr) : Heap α := { h with par := upd h.par a v }
/-- `a->left = v`. -/
def setLeft (h : Heap α) (a v : Addr) : Heap α := { h with left := upd h.left a v }
/-- `a->right = v`. -/
def setRight (h : Heap α) (a v : Addr) : Heap α := { h with right := upd h.right a v }
/-- `a->color = v`. -/
def setBlack (h : Heap α) (a : Addr) (v : Bool) : Heap α := { h with black := upd h.black a v }
/-- `root->node = v`. -/
def setRoot (h : Heap α) (v : Addr) : Heap α := { h with root := v }
end Heap

/-- `struct bfdev_rb_callbacks`, rbtree.h:43-47: functions that may change the augmented data. -/
structure Cb (α : Type) where
  rotate : Heap α → Addr → Addr → (Addr → α)
  copy : Heap α → Addr → Addr → (Addr → α)
  propagate : Heap α → Addr → Addr → (Addr → α)

namespace Cb
variable {α : Type}
/-- `callbacks->rotate(node, successor)`. -/
def doRotate (cb : Cb α) (h : Heap α) (a b : Addr) : Heap α := { h with aug := cb.rotate h a b }
/-- `callbacks->copy(node, successor)`. -/
def doCopy (cb : Cb α) (h : Heap α) (a b : Addr) : Heap α := { h with aug := cb.copy h a b }
/-- `callbacks->propagate(node, stop)`. -/
def doPropagate (cb : Cb α) (h : Heap α) (a b : Addr) : Heap α := { h with aug := cb.propagate h a b }
/-- `dummy_callbacks`, rbtree.c:502-507. -/
def dummy : Cb α := ⟨fun h _ _ => h.aug, fun h _ _ => h.aug, fun h _ _ => h.aug⟩
end Cb

variable {α : Type}

/-- `child_change`, rbtree.c:18-28. -/
def childChange (h : Heap α) (parent oldn newn : Addr) : Heap α :=
  if parent = 0 then h.setRoot newn
  else if h.left parent = oldn then h.setLeft parent newn
  else h.setRight parent newn

/-- `rotate_set`, rbtree.c:40-64; `none` as a colour is `BFDEV_RB_NSET`. -/
def rotateSet (cb : Cb α) (h : Heap α) (node newn child : Addr) (color ccolor : Option Bool) : Heap α :=
  let parent := h.par node
  let h := h.setPar newn (h.par node)
  let h := h.setPar node newn
  let h := match color with
    | some c => (h.setBlack newn (h.black node)).setBlack node c
    | none => h
  let h := if child ≠ 0 then
      let h := match ccolor with
        | some c => h.setBlack child c
        | none => h
      h.setPar child node
    else h
  let h := childChange h parent node newn
  cb.doRotate h node newn

/-- `left_rotate`, rbtree.c:74-90; the new heap and the child. -/
def leftRotate (cb : Cb α) (h : Heap α) (node : Addr) (color ccolor : Option Bool) : Option (Heap α × Addr) :=
  let successor := h.right node
  if successor = 0 then none
  else
    let child := h.left successor
    let h := h.setRight node child
    let h := h.setLeft successor node
    some (rotateSet cb h node successor child color ccolor, child)

/-- `right_rotate`, rbtree.c:100-116. -/
def rightRotate (cb : Cb α) (h : Heap α) (node : Addr) (color ccolor : Option Bool) : Option (Heap α × Addr) :=
  let successor := h.left node
  if successor = 0 then none
  else
    let child := h.right successor
    let h := h.setLeft node child
    let h := h.setRight successor node
    some (rotateSet cb h node successor child color ccolor, child)

/-- `bfdev_rb_fixup_augmented`, rbtree.c:118-226. -/
def fixup (cb : Cb α) : Nat → Heap α → Addr → Option (Heap α)
  | 0, _, _ => none
  | fuel + 1, h, node =>
    if node = 0 then some h
    else
      let parent := h.par node
      if parent = 0 then some (h.setBlack node true)
      else if h.black parent = true then some h
      else
        let gparent := h.par parent
        if gparent = 0 then none
        else
          let tmp := h.right gparent
          if tmp ≠ parent then
            if tmp ≠ 0 ∧ h.black tmp = false then
              fixup cb fuel (((h.setBlack tmp true).setBlack parent true).setBlack gparent false) gparent
            else do
              let h ← if node = h.right parent then (leftRotate cb h parent none (some true)).map (·.1) else some h
              (rightRotate cb h gparent (some false) (some true)).map (·.1)
          else
            let tmp := h.left gparent
            if tmp ≠ 0 ∧ h.black tmp = false then
              fixup cb fuel (((h.setBlack tmp true).setBlack parent true).setBlack gparent false) gparent
            else do
              let h ← if node = h.left parent then (rightRotate cb h parent none (some true)).map (·.1) else some h
              (leftRotate cb h gparent (some false) (some true)).map (·.1)

/-- `!tmp || tmp->color == BFDEV_RB_BLACK`. -/
def isBlackOrNull (h : Heap α) (a : Addr) : Bool := a == 0 || h.black a

/-- What one iteration of the loop of `bfdev_rb_erase_augmented` ends with: the loop is left, or goes on with `node` and `parent`. -/
inductive EraseNext (α : Type) where
  | stop (h : Heap α)
  | again (h : Heap α) (node parent : Addr)

/-- Case 2, rbtree.c:280-289 and 352-361. -/
def eraseFlip (h : Heap α) (sibling parent : Addr) : EraseNext α :=
  let h := h.setBlack sibling false
  if h.black parent = false then .stop (h.setBlack parent true)
  else if h.par parent = 0 then .stop h
  else .again h parent (h.par parent)

/-- rbtree.c:259-338: the sibling on the right is black. -/
def eraseLeft (cb : Cb α) (h : Heap α) (sibling parent : Addr) : Option (EraseNext α) :=
  if sibling = 0 then none
  else
    let tmp2 := h.right sibling
    if isBlackOrNull h tmp2 = true then
      let tmp1 := h.left sibling
      if isBlackOrNull h tmp1 = true then some (eraseFlip h sibling parent)
      else do
        let (h, _) ← rightRotate cb h sibling none (some true)
        let (h, _) ← leftRotate cb h parent (some true) none
        return .stop (h.setBlack sibling true)
    else do
      let (h, _) ← leftRotate cb h parent (some true) none
      return .stop (h.setBlack tmp2 true)

/-- rbtree.c:346-371: the sibling on the left is black. -/
def eraseRight (cb : Cb α) (h : Heap α) (sibling parent : Addr) : Option (EraseNext α) :=
  if sibling = 0 then none
  else
    let tmp1 := h.left sibling
    if isBlackOrNull h tmp1 = true then
      let tmp2 := h.right sibling
      if isBlackOrNull h tmp2 = true then some (eraseFlip h sibling parent)
      else do
        let (h, _) ← leftRotate cb h sibling none (some true)
        let (h, _) ← rightRotate cb h parent (some true) none
        return .stop (h.setBlack sibling true)
    else do
      let (h, _) ← rightRotate cb h parent (some true) none
      return .stop (h.setBlack tmp1 true)

/-- One iteration of `while (root && parent)`, rbtree.c:235-375. -/
def eraseStep (cb : Cb α) (h : Heap α) (node parent : Addr) : Option (EraseNext α) :=
  let sibling := h.right parent
  if node ≠ sibling then
    if sibling = 0 then none
    else if h.black sibling = false then do
      let (h, sibling) ← leftRotate cb h parent (some false) (some true)
      eraseLeft cb h sibling parent
    else eraseLeft cb h sibling parent
  else
    let sibling := h.left parent
    if sibling = 0 then none
    else if h.black sibling = false then do
      let (h, sibling) ← rightRotate cb h parent (some false) (some true)
      eraseRight cb h sibling parent
    else eraseRight cb h sibling parent

/-- The loop of `bfdev_rb_erase_augmented`, rbtree.c:228-376. -/
def eraseLoop (cb : Cb α) : Nat → Heap α → Addr → Addr → Option (Heap α)
  | 0, _, _, _ => none
  | fuel + 1, h, node, parent =>
    if parent = 0 then some h
    else match eraseStep cb h node parent with
      | none => none
      | some (.stop h) => some h
      | some (.again h node parent) => eraseLoop cb fuel h node parent

/-- `bfdev_rb_erase_augmented`, rbtree.c:228-376: the loop starts with `node = NULL`. -/
def erase (cb : Cb α) (fuel : Nat) (h : Heap α) (parent : Addr) : Option (Heap α) := eraseLoop cb fuel h 0 parent

/-- `do { parent = successor; successor = child1; child1 = child1->left; } while (child1)`, rbtree.c:465-469; the successor and its parent. -/
def succLoop (h : Heap α) : Nat → Addr → Addr → Option (Addr × Addr)
  | 0, _, _ => none
  | fuel + 1, successor, child1 =>
    let parent := successor
    let successor := child1
    let child1 := h.left successor
    if child1 ≠ 0 then succLoop h fuel successor child1 else some (successor, parent)

/-- rbtree.c:480-495: the successor takes the place of the node; `rebalance` is returned. -/
def removeFinish (h : Heap α) (node successor parent tmp : Addr) : Heap α × Addr :=
  let child1 := h.left node
  let h := h.setLeft successor child1
  let h := h.setPar child1 successor
  let child1 := h.par node
  let h := childChange h child1 node successor
  let (h, rebalance) := if tmp ≠ 0 then ((h.setPar tmp parent).setBlack tmp true, 0)
    else if h.black successor = true then (h, parent) else (h, 0)
  let h := h.setPar successor child1
  let h := h.setBlack successor (h.black node)
  (h, rebalance)

/-- `bfdev_rb_remove_augmented`, rbtree.c:378-500; the heap and `rebalance`. -/
def remove (cb : Cb α) (fuel : Nat) (h : Heap α) (node : Addr) : Option (Heap α × Addr) :=
  let parent := h.par node
  let child1 := h.left node
  let child2 := h.right node
  if child1 = 0 ∧ child2 = 0 then
    let rebalance := if h.black node = true then parent else 0
    let h := childChange h parent node 0
    some (cb.doPropagate h parent 0, rebalance)
  else if child2 = 0 then
    let h := h.setBlack child1 (h.black node)
    let h := h.setPar child1 (h.par node)
    let h := childChange h parent node child1
    some (cb.doPropagate h parent 0, 0)
  else if child1 = 0 then
    let h := h.setBlack child2 (h.black node)
    let h := h.setPar child2 (h.par node)
    let h := childChange h parent node child2
    some (cb.doPropagate h parent 0, 0)
  else
    let child1 := h.left child2
    if child1 = 0 then
      let successor := child2
      let parent := successor
      let tmp := h.right successor
      let h := cb.doCopy h node successor
      let (h, rebalance) := removeFinish h node successor parent tmp
      some (cb.doPropagate h successor 0, rebalance)
    else
      match succLoop h fuel child2 child1 with
      | none => none
      | some (successor, parent) =>
        let tmp := h.right successor
        let h := h.setLeft parent tmp
        let h := h.setRight successor child2
        let h := h.setPar child2 successor
        let h := cb.doCopy h node successor
        let h := cb.doPropagate h parent successor
        let (h, rebalance) := removeFinish h node successor parent tmp
        some (cb.doPropagate h successor 0, rebalance)

/-- `bfdev_rb_replace`, rbtree.c:527-542. -/
def replace (h : Heap α) (oldn newn : Addr) : Heap α :=
  let parent := h.par oldn
  let h := (((h.setPar newn (h.par oldn)).setLeft newn (h.left oldn)).setRight newn (h.right oldn)).setBlack newn (h.black oldn)
  let h := if h.left oldn ≠ 0 then h.setPar (h.left oldn) newn else h
  let h := if h.right oldn ≠ 0 then h.setPar (h.right oldn) newn else h
  childChange h parent oldn newn

/-- `bfdev_rb_find`, rbtree.c:544-564; `f` is `find(·, key)`. -/
def find (h : Heap α) (f : Addr → Int) : Nat → Addr → Option Addr
  | 0, _ => none
  | fuel + 1, node =>
    if node = 0 then some 0
    else if f node = 0 then some node
    else if f node > 0 then find h f fuel (h.left node)
    else find h f fuel (h.right node)

/-- A `bfdev_rb_node_t **`: the address of `root->node`, of `a->left` or of `a->right`. -/
inductive Link where
  | root
  | left (a : Addr)
  | right (a : Addr)
deriving DecidableEq

/-- `*link`. -/
def Link.get (h : Heap α) : Link → Addr
  | .root => h.root
  | .left a => h.left a
  | .right a => h.right a
/-- `*link = v`. -/
def Link.set (h : Heap α) (l : Link) (v : Addr) : Heap α :=
  match l with
  | .root => h.setRoot v
  | .left a => h.setLeft a v
  | .right a => h.setRight a v

/-- The loop of `bfdev_rb_parent`, rbtree.c:620-632; `c` is `cmp(node, ·, pdata)`. The result is `NULL` (`some none`), or link, parent and leftmost. -/
def parentLoop (h : Heap α) (c : Addr → Int) : Nat → Link → Bool → Option (Option (Link × Addr × Bool))
  | 0, _, _ => none
  | fuel + 1, link, leftmost =>
    let cur := link.get h
    if c cur = 0 then some none
    else if c cur < 0 then
      if h.left cur ≠ 0 then parentLoop h c fuel (.left cur) leftmost else some (some (.left cur, cur, leftmost))
    else
      if h.right cur ≠ 0 then parentLoop h c fuel (.right cur) false else some (some (.right cur, cur, false))

/-- `bfdev_rb_parent`, rbtree.c:603-639. -/
def parent (h : Heap α) (c : Addr → Int) (fuel : Nat) : Option (Option (Link × Addr × Bool)) :=
  if h.root = 0 then some (some (.root, 0, true)) else parentLoop h c fuel .root true

/-- The loop of `bfdev_rb_find_last`, rbtree.c:582-594; `f` is `find(·, key)`. The node found, link, parent and leftmost. -/
def findLastLoop (h : Heap α) (f : Addr → Int) : Nat → Link → Bool → Option (Addr × Link × Addr × Bool)
  | 0, _, _ => none
  | fuel + 1, link, leftmost =>
    let cur := link.get h
    if f cur = 0 then some (cur, link, cur, leftmost)
    else if f cur > 0 then
      if h.left cur ≠ 0 then findLastLoop h f fuel (.left cur) leftmost else some (0, .left cur, cur, leftmost)
    else
      if h.right cur ≠ 0 then findLastLoop h f fuel (.right cur) false else some (0, .right cur, cur, false)

/-- `bfdev_rb_find_last`, rbtree.c:566-601. (When a node is found `*leftmostp` is not written; the model's fourth component is then meaningless.) -/
def findLast (h : Heap α) (f : Addr → Int) (fuel : Nat) : Option (Addr × Link × Addr × Bool) :=
  if h.root = 0 then some (0, .root, 0, true) else findLastLoop h f fuel .root true

/-- `bfdev_rb_link`, rbtree.h:615-630; the debug check is added in `Verif/Rbtree/Debug.lean` (C91). -/
def link (h : Heap α) (parent : Addr) (l : Link) (node : Addr) : Heap α :=
  let h := l.set h node
  let h := h.setPar node parent
  let h := h.setBlack node false
  (h.setRight node 0).setLeft node 0

/-- `bfdev_rb_insert_node_augmented`, rbtree.h:697-704, and `bfdev_rb_insert_node`, 639-645, with the dummy callbacks. -/
def insertNode (cb : Cb α) (fuel : Nat) (h : Heap α) (parent : Addr) (l : Link) (node : Addr) : Option (Heap α) :=
  fixup cb fuel (link h parent l node) node

/-- `bfdev_rb_insert_augmented`, rbtree.h:713-726, and `bfdev_rb_insert`, 653-665: the heap and the result. -/
def insert (cb : Cb α) (fuel : Nat) (h : Heap α) (node : Addr) (c : Addr → Int) : Option (Heap α × Bool) :=
  match parent h c fuel with
  | none => none
  | some none => some (h, false)
  | some (some (l, p, _)) => (insertNode cb fuel h p l node).map (·, true)

/-- `BFDEV_POISON_RBNODE1..3`, poison.h:26-28: left in the pointers of a deleted node, rbtree.h:684-686. -/
def poison (h : Heap α) (node : Addr) : Heap α := ((h.setLeft node 0x400).setRight node 0x410).setPar node 0x420

/-- `bfdev_rb_delete_augmented`, rbtree.h:734-751, and `bfdev_rb_delete`, 672-690. -/
def delete (cb : Cb α) (fuel : Nat) (h : Heap α) (node : Addr) : Option (Heap α) :=
  match remove cb fuel h node with
  | none => none
  | some (h, rebalance) =>
    (if rebalance ≠ 0 then erase cb fuel h rebalance else some h).map (fun h => poison h node)

/-! ### Iteration, titer.h -/

/-- `_left_far`, titer.h:17-24. -/
def leftFar (h : Heap α) : Nat → Addr → Option Addr
  | 0, _ => none
  | fuel + 1, node => if h.left node ≠ 0 then leftFar h fuel (h.left node) else some node
/-- `_right_far`, titer.h:26-33. -/
def rightFar (h : Heap α) : Nat → Addr → Option Addr
  | 0, _ => none
  | fuel + 1, node => if h.right node ≠ 0 then rightFar h fuel (h.right node) else some node
/-- `_left_deep`, titer.h:35-48. -/
def leftDeep (h : Heap α) : Nat → Addr → Option Addr
  | 0, _ => none
  | fuel + 1, node =>
    if node = 0 then some 0
    else if h.left node ≠ 0 then leftDeep h fuel (h.left node)
    else if h.right node ≠ 0 then leftDeep h fuel (h.right node)
    else some node
/-- `_right_deep`, titer.h:50-63. -/
def rightDeep (h : Heap α) : Nat → Addr → Option Addr
  | 0, _ => none
  | fuel + 1, node =>
    if node = 0 then some 0
    else if h.right node ≠ 0 then rightDeep h fuel (h.right node)
    else if h.left node ≠ 0 then rightDeep h fuel (h.left node)
    else some node

/-- `_first`, titer.h:67-77. -/
def first (h : Heap α) (fuel : Nat) : Option Addr := if h.root = 0 then some 0 else leftFar h fuel h.root
/-- `_last`, titer.h:79-89. -/
def last (h : Heap α) (fuel : Nat) : Option Addr := if h.root = 0 then some 0 else rightFar h fuel h.root

/-- `while ((parent = node->parent) && node != parent->right) node = parent; return parent;`, titer.h:111-114. -/
def climbPrev (h : Heap α) : Nat → Addr → Option Addr
  | 0, _ => none
  | fuel + 1, node => if h.par node ≠ 0 ∧ node ≠ h.right (h.par node) then climbPrev h fuel (h.par node) else some (h.par node)
/-- `while ((parent = node->parent) && node != parent->left) node = parent; return parent;`, titer.h:137-140. -/
def climbNext (h : Heap α) : Nat → Addr → Option Addr
  | 0, _ => none
  | fuel + 1, node => if h.par node ≠ 0 ∧ node ≠ h.left (h.par node) then climbNext h fuel (h.par node) else some (h.par node)

/-- `_prev`, titer.h:91-115. -/
def prev (h : Heap α) (fuel : Nat) (node : Addr) : Option Addr :=
  if node = 0 then some 0 else if h.left node ≠ 0 then rightFar h fuel (h.left node) else climbPrev h fuel node
/-- `_next`, titer.h:117-141. -/
def next (h : Heap α) (fuel : Nat) (node : Addr) : Option Addr :=
  if node = 0 then some 0 else if h.right node ≠ 0 then leftFar h fuel (h.right node) else climbNext h fuel node

/-- `_pre_first`, titer.h:145-149. -/
def preFirst (h : Heap α) : Addr := h.root
/-- The climb of `_pre_next`, titer.h:172-176. -/
def climbPre (h : Heap α) : Nat → Addr → Option Addr
  | 0, _ => none
  | fuel + 1, node =>
    let parent := h.par node
    if parent ≠ 0 ∧ (h.right parent = 0 ∨ node = h.right parent) then climbPre h fuel parent
    else some (if parent ≠ 0 then h.right parent else 0)
/-- `_pre_next`, titer.h:151-177. -/
def preNext (h : Heap α) (fuel : Nat) (node : Addr) : Option Addr :=
  if node = 0 then some 0 else if h.left node ≠ 0 then some (h.left node) else if h.right node ≠ 0 then some (h.right node) else climbPre h fuel node

/-- `_post_first`, titer.h:181-190. -/
def postFirst (h : Heap α) (fuel : Nat) : Option Addr := if h.root = 0 then some 0 else leftDeep h fuel h.root
/-- `_post_next`, titer.h:192-210. -/
def postNext (h : Heap α) (fuel : Nat) (node : Addr) : Option Addr :=
  if node = 0 then some 0
  else
    let parent := h.par node
    if parent ≠ 0 ∧ node = h.left parent ∧ h.right parent ≠ 0 then leftDeep h fuel (h.right parent) else some parent

/-- `for (pos = first; pos; pos = next(pos))`, rbtree.h:322-323 and the other `for_each` macros: the nodes visited. -/
def walk (nxt : Addr → Option Addr) : Nat → Addr → Option (List Addr)
  | 0, _ => none
  | fuel + 1, pos => if pos = 0 then some [] else
    match nxt pos with
    | none => none
    | some p => (walk nxt fuel p).map (pos :: ·)

/-! ### Cached trees -/

/-- `bfdev_rb_cached_insert`, rbtree.h:895-908, with `bfdev_rb_cached_fixup`, 855-863: heap, `cached->leftmost`, result. -/
def cachedInsert (cb : Cb α) (fuel : Nat) (h : Heap α) (leftmost : Addr) (node : Addr) (c : Addr → Int) : Option (Heap α × Addr × Bool) :=
  match parent h c fuel with
  | none => none
  | some none => some (h, leftmost, false)
  | some (some (l, p, lm)) => (insertNode cb fuel h p l node).map (·, if lm then node else leftmost, true)

/-- `bfdev_rb_cached_delete`, rbtree.h:915-929: heap, `cached->leftmost`, returned node. -/
def cachedDelete (cb : Cb α) (fuel : Nat) (h : Heap α) (leftmost : Addr) (node : Addr) : Option (Heap α × Addr × Addr) :=
  if leftmost ≠ node then (delete cb fuel h node).map (·, leftmost, 0)
  else
    match next h fuel node with
    | none => none
    | some lm => (delete cb fuel h node).map (·, lm, lm)

end Bfdev.Rbtree

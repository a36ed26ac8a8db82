import Verif.Dlist.Model
/-!
Specification of circular lists: the memory consists of disjoint rings. A ring is written as the list of its nodes starting
anywhere, usually at its head.
-/
namespace Bfdev.Dlist

/-- Going from `a` through `l` to `b`, forward and backward links agree. -/
def Links (s : Heap) (a : Addr) (l : List Addr) (b : Addr) : Prop :=
  match l with
  | [] => s.next a = b ∧ s.prev b = a
  | x :: l => s.next a = x ∧ s.prev x = a ∧ Links s x l b

/-- The nodes of `c`, in this order, form a ring. -/
def Ring (s : Heap) : List Addr → Prop
  | [] => False
  | h :: t => Links s h t h

/-- Memory holds exactly these disjoint rings (and possibly other nodes nobody refers to). -/
structure World (s : Heap) (W : List (List Addr)) : Prop where
  ring : ∀ c ∈ W, Ring s c
  nodup : W.flatten.Nodup

inductive Op where
  | headInit (h : Addr)
  | add (a n : Addr)
  | addPrev (a n : Addr)
  | del (x : Addr)
  | delInit (x : Addr)
  | replace (o n : Addr)
  | replaceInit (o n : Addr)
  | move (a x : Addr)
  | movePrev (a x : Addr)
  | swap (x y : Addr)
  | splice (a g : Addr)
  | splicePrev (a g : Addr)
  | spliceInit (a g : Addr)
  | spliceTailInit (a g : Addr)

def Op.run (s : Heap) : Op → Heap
  | .headInit h => Dlist.headInit s h
  | .add a n => Dlist.add s a n
  | .addPrev a n => Dlist.addPrev s a n
  | .del x => Dlist.del s x
  | .delInit x => Dlist.delInit s x
  | .replace o n => Dlist.replace s o n
  | .replaceInit o n => Dlist.replaceInit s o n
  | .move a x => Dlist.move s a x
  | .movePrev a x => Dlist.movePrev s a x
  | .swap x y => Dlist.swap s x y
  | .splice a g => Dlist.splice s a g
  | .splicePrev a g => Dlist.splicePrev s a g
  | .spliceInit a g => Dlist.spliceInit s a g
  | .spliceTailInit a g => Dlist.spliceTailInit s a g

/-- Insert `ys` before the node `a` of the ring `l ++ a :: r` whose first node is the head: before the head means at the end. -/
def before (l : List Addr) (a : Addr) (r ys : List Addr) : List Addr :=
  if l = [] then a :: r ++ ys else l ++ ys ++ a :: r

/-- Exchange two names. -/
def exchange (x y z : Addr) : Addr := if z = x then y else if z = y then x else z

/-- What the operations mean on sequences. Rings are listed in any order. -/
inductive Step : List (List Addr) → Op → List (List Addr) → Prop
  | perm {W W' op X} : W.Perm W' → Step W' op X → Step W op X
  | headInit {W h} : h ∉ W.flatten → Step W (.headInit h) ([h] :: W)
  | add {W l a r n} : n ∉ ((l ++ a :: r) :: W).flatten → Step ((l ++ a :: r) :: W) (.add a n) ((l ++ a :: n :: r) :: W)
  | addPrev {W l a r n} : n ∉ ((l ++ a :: r) :: W).flatten → Step ((l ++ a :: r) :: W) (.addPrev a n) (before l a r [n] :: W)
  | del {W l x r} : l ≠ [] → Step ((l ++ x :: r) :: W) (.del x) ((l ++ r) :: W)
  | delInit {W l x r} : l ≠ [] → Step ((l ++ x :: r) :: W) (.delInit x) ([x] :: (l ++ r) :: W)
  | replace {W l o r n} : l ++ r ≠ [] → n ∉ ((l ++ o :: r) :: W).flatten → Step ((l ++ o :: r) :: W) (.replace o n) ((l ++ n :: r) :: W)
  | replaceInit {W l o r n} : l ++ r ≠ [] → n ∉ ((l ++ o :: r) :: W).flatten →
      Step ((l ++ o :: r) :: W) (.replaceInit o n) ([o] :: (l ++ n :: r) :: W)
  | moveSame {W l x r l' a r'} : l ≠ [] → l ++ r = l' ++ a :: r' → Step ((l ++ x :: r) :: W) (.move a x) ((l' ++ a :: x :: r') :: W)
  | moveOther {W l x r l' a r'} : l ≠ [] →
      Step ((l ++ x :: r) :: (l' ++ a :: r') :: W) (.move a x) ((l ++ r) :: (l' ++ a :: x :: r') :: W)
  | movePrevSame {W l x r l' a r'} : l ≠ [] → l ++ r = l' ++ a :: r' → Step ((l ++ x :: r) :: W) (.movePrev a x) (before l' a r' [x] :: W)
  | movePrevOther {W l x r l' a r'} : l ≠ [] →
      Step ((l ++ x :: r) :: (l' ++ a :: r') :: W) (.movePrev a x) ((l ++ r) :: before l' a r' [x] :: W)
  | swapSame {W c x y} : x ∈ c → y ∈ c → x ≠ y → 3 ≤ c.length → Step (c :: W) (.swap x y) (c.map (exchange x y) :: W)
  | swapOther {W c d x y} : x ∈ c → y ∈ d → 2 ≤ c.length → 2 ≤ d.length →
      Step (c :: d :: W) (.swap x y) (c.map (exchange x y) :: d.map (exchange x y) :: W)
  | splice {W l a r g ys} : ys ≠ [] → Step ((l ++ a :: r) :: (g :: ys) :: W) (.splice a g) ((l ++ a :: ys ++ r) :: W)
  | splicePrev {W l a r g ys} : ys ≠ [] → Step ((l ++ a :: r) :: (g :: ys) :: W) (.splicePrev a g) (before l a r ys :: W)
  | spliceEmpty {W a g} : Step ([g] :: W) (.splice a g) ([g] :: W)
  | splicePrevEmpty {W a g} : Step ([g] :: W) (.splicePrev a g) ([g] :: W)
  | spliceInit {W l a r g ys} : Step ((l ++ a :: r) :: (g :: ys) :: W) (.spliceInit a g) ((l ++ a :: ys ++ r) :: [g] :: W)
  | spliceTailInit {W l a r g ys} : Step ((l ++ a :: r) :: (g :: ys) :: W) (.spliceTailInit a g) (before l a r ys :: [g] :: W)

/-- A history of operations explained on sequences. -/
inductive Steps : List (List Addr) → List Op → List (List Addr) → Prop
  | nil {W} : Steps W [] W
  | cons {W op W' ops W''} : Step W op W' → Steps W' ops W'' → Steps W (op :: ops) W''

end Bfdev.Dlist

/-
Model of `include/bfdev/list.h`. A node is its address; memory is the pair of its `next` and `prev` fields.
All nodes touched are assumed to be valid objects (the fields are total functions); the debug checks (BFDEV_DEBUG_LIST),
which the default configuration turns on, are left out here and added in `Verif/Dlist/Debug.lean` (C91).
-/
namespace Bfdev.Dlist

abbrev Addr := Nat

/-- `f` with the field of `a` overwritten. -/
def upd (f : Addr → Addr) (a v : Addr) : Addr → Addr := fun x => if x = a then v else f x

/-- The two fields of `bfdev_list_head_t`, list.h:19-22, for every node. -/
structure Heap where
  next : Addr → Addr
  prev : Addr → Addr

def Heap.setNext (s : Heap) (a v : Addr) : Heap := { s with next := upd s.next a v }
def Heap.setPrev (s : Heap) (a v : Addr) : Heap := { s with prev := upd s.prev a v }

/-- `bfdev_list_insert`, list.h:52-65. -/
def insert (s : Heap) (prev next node : Addr) : Heap :=
  (((s.setNext prev node).setPrev next node).setPrev node prev).setNext node next

/-- `bfdev_list_head_init`, list.h:71-75. -/
def headInit (s : Heap) (head : Addr) : Heap := (s.setPrev head head).setNext head head

/-- `bfdev_list_add`, list.h:82-86. -/
def add (s : Heap) (node newn : Addr) : Heap := insert s node (s.next node) newn

/-- `bfdev_list_add_prev`, list.h:93-97. -/
def addPrev (s : Heap) (node newn : Addr) : Heap := insert s (s.prev node) node newn

/-- `bfdev_list_deluf`, list.h:103-108. -/
def deluf (s : Heap) (node : Addr) : Heap :=
  let s := s.setNext (s.prev node) (s.next node)
  s.setPrev (s.next node) (s.prev node)

/-- `bfdev_list_del`, list.h:114-125, with the poison values of poison.h:20-21. -/
def del (s : Heap) (node : Addr) : Heap := ((deluf s node).setNext node 0x100).setPrev node 0x110

/-- `bfdev_list_check_empty`, list.h:131-135. -/
def checkEmpty (s : Heap) (head : Addr) : Bool := s.next head == head

/-- `bfdev_list_check_first`, list.h:154-159. -/
def checkFirst (s : Heap) (head node : Addr) : Bool := s.prev node == head

/-- `bfdev_list_check_end`, list.h:166-171. -/
def checkEnd (s : Heap) (head node : Addr) : Bool := s.next node == head

/-- `bfdev_list_check_another`, list.h:178-183. -/
def checkAnother (s : Heap) (head node : Addr) : Bool := s.next head == node && s.prev head == node

/-- `bfdev_list_relocate`, list.h:185-200. -/
def relocate (s : Heap) (prev next list : Addr) : Heap :=
  let first := s.next list
  let last := s.prev list
  (((s.setPrev first prev).setNext prev first).setNext last next).setPrev next last

/-- `bfdev_list_splice`, list.h:207-212. -/
def splice (s : Heap) (head list : Addr) : Heap :=
  if checkEmpty s list then s else relocate s head (s.next head) list

/-- `bfdev_list_splice_prev`, list.h:219-224. -/
def splicePrev (s : Heap) (head list : Addr) : Heap :=
  if checkEmpty s list then s else relocate s (s.prev head) head list

/-- `bfdev_list_replace`, list.h:231-239. -/
def replace (s : Heap) (oldn newn : Addr) : Heap :=
  let s := s.setPrev newn (s.prev oldn)
  let s := s.setNext newn (s.next oldn)
  let s := s.setNext (s.prev newn) newn
  s.setPrev (s.next newn) newn

/-- `bfdev_list_move`, list.h:246-251. -/
def move (s : Heap) (head node : Addr) : Heap := add (del s node) head node

/-- `bfdev_list_move_prev`, list.h:258-263. -/
def movePrev (s : Heap) (head node : Addr) : Heap := addPrev (del s node) head node

/-- `bfdev_list_swap`, list.h:270-282. -/
def swap (s : Heap) (node1 node2 : Addr) : Heap :=
  let prev := s.prev node2
  let s := del s node2
  let s := replace s node1 node2
  let prev := if prev = node1 then node2 else prev
  add s prev node1

/-- `bfdev_list_del_init`, list.h:288-293. -/
def delInit (s : Heap) (node : Addr) : Heap := headInit (deluf s node) node

/-- `bfdev_list_replace_init`, list.h:300-305. -/
def replaceInit (s : Heap) (oldn newn : Addr) : Heap := headInit (replace s oldn newn) oldn

/-- `bfdev_list_splice_init`, list.h:312-319. -/
def spliceInit (s : Heap) (head list : Addr) : Heap :=
  if checkEmpty s list then s else headInit (splice s head list) list

/-- `bfdev_list_splice_tail_init`, list.h:326-333. -/
def spliceTailInit (s : Heap) (head list : Addr) : Heap :=
  if checkEmpty s list then s else headInit (splicePrev s head list) list

/-- The loop of `bfdev_list_for_each_from`, list.h:458-459, collecting the cursors; `none` when the fuel runs out. -/
def walkFrom (step : Addr → Addr) (head : Addr) : Nat → Addr → Option (List Addr)
  | 0, _ => none
  | fuel + 1, pos => if pos = head then some [] else (walkFrom step head fuel (step pos)).map (pos :: ·)

/-- `bfdev_list_for_each`, list.h:440-442. -/
def forEach (s : Heap) (head : Addr) (fuel : Nat) : Option (List Addr) := walkFrom s.next head fuel (s.next head)

/-- `bfdev_list_for_each_reverse`, list.h:449-451. -/
def forEachReverse (s : Heap) (head : Addr) (fuel : Nat) : Option (List Addr) := walkFrom s.prev head fuel (s.prev head)

/-- `bfdev_list_for_each_safe`, list.h:493-496, with a body that deletes each entry. The cursors visited and the final memory. -/
def drainFrom (head : Addr) : Nat → Heap → Addr → Addr → Option (List Addr × Heap)
  | 0, _, _, _ => none
  | fuel + 1, s, pos, tmp =>
    if pos = head then some ([], s)
    else
      let s := del s pos
      (drainFrom head fuel s tmp (s.next tmp)).map (fun r => (pos :: r.1, r.2))

def drain (s : Heap) (head : Addr) (fuel : Nat) : Option (List Addr × Heap) :=
  drainFrom head fuel s (s.next head) (s.next (s.next head))

end Bfdev.Dlist

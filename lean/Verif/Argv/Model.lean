import Verif.Common.Mem
import Verif.Common.Loop
/-!
Model of `src/argv.c`. A C string is the list of its bytes without the terminating zero; in memory the zero follows.
-/
namespace Bfdev.Argv

/-- `ARGV_SEPARA`, argv.c:10. -/
def separators : List Byte := [32, 9, 13, 10]

/-- `strspn(s, ARGV_SEPARA)` on the string that starts here and ends at the first zero byte (or the end of the list). -/
def strspn : List Byte → Nat
  | [] => 0
  | c :: s => if c ∈ separators then strspn s + 1 else 0

/-- `strcspn(s, ARGV_SEPARA)`: stops at a separator or at the terminating zero. -/
def strcspn : List Byte → Nat
  | [] => 0
  | c :: s => if c = 0 ∨ c ∈ separators then 0 else strcspn s + 1

/-- The loop of `bfdev_argv_count`, argv.c:18-30, on a memory block holding the string and its zero; `fuel` bounds the iterations. The reads
`args[offset]` leave the block only when the zero is missing. -/
def countLoop : Nat → List Byte → Nat → Option Nat
  | 0, _, _ => none
  | fuel + 1, args, argc =>
    match args[strspn args]? with
    | none => none
    | some c =>
      if c = 0 then some argc
      else
        let args := args.drop (strspn args)
        let argc := (argc + 1) % 4294967296
        match args[strcspn args]? with
        | none => none
        | some c => if c = 0 then some argc else countLoop fuel (args.drop (strcspn args)) argc

/-- `bfdev_argv_count`, argv.c:12-33. -/
def count (args : List Byte) : Option Nat := countLoop (args.length + 1) (args ++ [0]) 0

/-- The copy of the arguments and the position reached in it; `argv` are the positions stored so far. -/
structure St where
  mem : List Byte
  pos : Nat
  argv : List Nat
deriving DecidableEq

/-- Body of the loop of `bfdev_argv_split`, argv.c:52-57. -/
def splitBody (_ : Nat) (s : St) : Option St :=
  let p := s.pos + strspn (s.mem.drop s.pos)
  let q := p + strcspn (s.mem.drop p)
  (setIdx s.mem q 0).map fun mem => ⟨mem, q + 1, s.argv ++ [p]⟩

/-- `bfdev_argv_split`, argv.c:35-65, when the allocation succeeds: the copied block after splitting, the pointers stored in `argv[0]` to
`argv[argc - 1]` as offsets into it (`argv[argc]` is NULL) and `argc`. No result when the 32-bit size of the pointer block wraps. -/
def split (args : List Byte) : Option (List Byte × List Nat × Nat) :=
  (count args).bind fun argc =>
  if (argc + 1) * 8 ≥ 4294967296 then none
  else (forN argc splitBody ⟨args ++ [0], 0, []⟩).map fun s => (s.mem, s.argv, argc)

end Bfdev.Argv

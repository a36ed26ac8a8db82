import Verif.Common.Mem
/-!
Model of `src/libc/strdup.c`. A string in memory is the list of its characters (all nonzero), followed by the terminator. A fresh block is a list of
cells without a value (`none`); a write outside the block makes the whole call fail with `none`. The `bfport_*` functions are the C library's
(`port/string.h`); they are modelled by the C standard (trusted base).
-/
namespace Bfdev.Strdup

/-- A block of memory: cells, each with a byte or still uninitialised. -/
abbrev Block := List (Option Byte)

/-- `bfdev_malloc`: a block of `n` uninitialised bytes. (The allocator's refusal is the flag `grant = false` of the callers.) -/
def malloc (n : Nat) : Block := List.replicate n none

/-- `strcpy`: the characters and the terminator. -/
def strcpy (dst : Block) (s : List Byte) : Option Block := wr dst 0 ((s ++ [0]).map some)

/-- `strncpy`: exactly `n` bytes are written: the first `n` characters, and zero bytes if the string is shorter. -/
def strncpy (dst : Block) (s : List Byte) (n : Nat) : Option Block := wr dst 0 ((s.take n ++ List.replicate (n - s.length) 0).map some)

/-- `bfdev_strdup`, strdup.c:10-27. `s = none` is the null pointer; the result `some none` is `NULL`. -/
def strdup (grant : Bool) (s : Option (List Byte)) : Option (Option Block) :=
  match s with
  | none => some none
  | some s =>
    let length := s.length
    if grant then (strcpy (malloc (length + 1)) s).map some else some none

/-- `bfdev_strndup`, strdup.c:29-46. -/
def strndup (grant : Bool) (s : Option (List Byte)) (len : Nat) : Option (Option Block) :=
  match s with
  | none => some none
  | some s =>
    let length := min s.length len
    if grant then (strncpy (malloc (length + 1)) s len).map some else some none

end Bfdev.Strdup

import Verif.Scan.Model
/-!
Model of `src/stringhash.c` and of `bfdev_strdiff` and `bfdev_memdiff` in `src/libc/string.c`. Memory from the pointer on is a list of bytes; reading behind its end is
`none`. `char` is signed.
-/
namespace Bfdev.Strhash
open Scan (Word)

abbrev Byte := BitVec 8

/-- One turn of the loop of `bfdev_pjwhash`, stringhash.c:15-24. -/
def turn (hash : Word) (c : Byte) : Word :=
  let hash := hash <<< 4
  let hash := hash + c.signExtend 64
  let value := hash &&& (0xf#64 <<< (32 - 4))
  if value ≠ 0 then
    let hash := hash ^^^ (value >>> (32 - 8))
    hash ^^^ value
  else hash

/-- The loop of `bfdev_pjwhash`, stringhash.c:14-24. -/
def pjwLoop : List Byte → Word → Option Word
  | [], _ => none
  | c :: str, hash => if c ≠ 0 then pjwLoop str (turn hash c) else some hash

/-- `bfdev_pjwhash`, stringhash.c:8-27. -/
def pjwhash (str : List Byte) : Option Word := pjwLoop str 0

/-- `bfdev_strdiff`, string.c:11-21: the offset of the character returned, or `none` inside for NULL. -/
def strdiff : List Byte → Byte → Nat → Option (Option Nat)
  | [], _, _ => none
  | x :: addr, c, at_ => if x ≠ 0 then if x ≠ c then some (some at_) else strdiff addr c (at_ + 1) else some none

/-- `bfdev_memdiff`, string.c:23-36. -/
def memdiff : List Byte → Byte → Nat → Nat → Option (Option Nat)
  | _, _, 0, _ => some none
  | [], _, _ + 1, _ => none
  | x :: p, c, size + 1, at_ => if x ≠ c then some (some at_) else memdiff p c size (at_ + 1)

end Bfdev.Strhash

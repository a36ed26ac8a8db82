import Verif.Scan.Model
import Verif.Swab.Model

/-!
# Jenkins hash and golden-ratio hash: src/jhash.c, include/bfdev/jhash.h, include/bfdev/hash.h
-/

namespace Bfdev.Jhash

open Bfdev.Scan (rol)
open Bfdev.Swab (getLe32)

abbrev U32 := BitVec 32

/-- The three registers `a, b, c`. -/
abbrev Regs := U32 × U32 × U32

/-- `bfdev_jhash_mix`, jhash.h:19-26, statement by statement. -/
def mix : Regs → Regs
  | (a, b, c) =>
    let a := a - c; let a := a ^^^ rol 32 c 4; let c := c + b
    let b := b - a; let b := b ^^^ rol 32 a 6; let a := a + c
    let c := c - b; let c := c ^^^ rol 32 b 8; let b := b + a
    let a := a - c; let a := a ^^^ rol 32 c 16; let c := c + b
    let b := b - a; let b := b ^^^ rol 32 a 19; let a := a + c
    let c := c - b; let c := c ^^^ rol 32 b 4; let b := b + a
    (a, b, c)

/-- `bfdev_jhash_final`, jhash.h:29-37, statement by statement. -/
def final : Regs → Regs
  | (a, b, c) =>
    let c := c ^^^ b; let c := c - rol 32 b 14
    let a := a ^^^ c; let a := a - rol 32 c 11
    let b := b ^^^ a; let b := b - rol 32 a 25
    let c := c ^^^ b; let c := c - rol 32 b 16
    let a := a ^^^ c; let a := a - rol 32 c 4
    let b := b ^^^ a; let b := b - rol 32 a 14
    let c := c ^^^ b; let c := c - rol 32 b 24
    (a, b, c)

/-- One `x += (uint32_t)data[i] << s` of the last block, executed when the entry label lies above it. -/
def addByte (run : Bool) (data : List Byte) (i s : Nat) (x : U32) : Option U32 :=
  if run then (data[i]?).map (fun b => x + BitVec.zeroExtend 32 b <<< s) else some x

/-- The `switch` of jhash.c:28-47 on the remaining `length` (the cases fall through). -/
def last (data : List Byte) (length : Nat) : Regs → Option U32
  | (a, b, c) => do
    let lab (n : Nat) : Bool := decide (n ≤ length ∧ length ≤ 12)
    let c ← addByte (lab 12) data 11 24 c
    let c ← addByte (lab 11) data 10 16 c
    let c ← addByte (lab 10) data 9 8 c
    let c ← addByte (lab 9) data 8 0 c
    let b ← addByte (lab 8) data 7 24 b
    let b ← addByte (lab 7) data 6 16 b
    let b ← addByte (lab 6) data 5 8 b
    let b ← addByte (lab 5) data 4 0 b
    let a ← addByte (lab 4) data 3 24 a
    let a ← addByte (lab 3) data 2 16 a
    let a ← addByte (lab 2) data 1 8 a
    let a ← addByte (lab 1) data 0 0 a
    if lab 1 then some (final (a, b, c)).2.2 else some c

/-- The loop of jhash.c:20-25 and what follows; `data` is the memory from the current pointer on. -/
def blocks : Nat → List Byte → Nat → Regs → Option U32
  | 0, _, _, _ => none
  | fuel + 1, data, length, (a, b, c) =>
    if length > 12 then do
      let w0 ← getLe32 data 0
      let w1 ← getLe32 data 4
      let w2 ← getLe32 data 8
      blocks fuel (data.drop 12) (length - 12) (mix (a + w0, b + w1, c + w2))
    else last data length (a, b, c)

/-- `jhash` / `bfdev_jhash`, jhash.c:11-56 (`length` is a `size_t`, cut to 32 bits by the assignment to `a`). -/
def jhash (data : List Byte) (length : Nat) (initval : U32) : Option U32 :=
  let a : U32 := 0xdeadbeef#32 + BitVec.ofNat 32 length + initval
  blocks (length + 1) data length (a, a, a)

/-- `bfdev_hashv32_generic`, hash.h:33-38. -/
def hashv32 (v : U32) : U32 := v * 0x61c88647#32

/-- `bfdev_hashv64_generic`, hash.h:40-44. -/
def hashv64 (v : BitVec 64) : BitVec 64 := v * 0x61c8864680b583eb#64

/-- `bfdev_hash32`, hash.h:51-56: the shift count `32 - bits` is an `unsigned int`; a count of 32 or more is undefined. -/
def hash32 (v : U32) (bits : Nat) : Option U32 :=
  let s := (32 + 2 ^ 32 - bits % 2 ^ 32) % 2 ^ 32
  if s < 32 then some (hashv32 v >>> s) else none

/-- `bfdev_hash64`, hash.h:58-62. -/
def hash64 (v : BitVec 64) (bits : Nat) : Option (BitVec 64) :=
  let s := (64 + 2 ^ 32 - bits % 2 ^ 32) % 2 ^ 32
  if s < 64 then some (hashv64 v >>> s) else none

end Bfdev.Jhash

import Verif.Common.Mem

/-!
# ARC4 stream cipher: src/crypto/arc4.c, include/bfdev/arc4.h

The box has 256 entries and every index is a `uint8_t`, so it is a total function on bytes.
-/

namespace Bfdev.Arc4

/-- `struct bfdev_arc4_ctx`, arc4.h:21-25. -/
structure Ctx where
  box : Byte → Byte
  proa : Byte
  prob : Byte

/-- The store `box[i] = v`. -/
def put (box : Byte → Byte) (i v : Byte) : Byte → Byte := fun k => if k = i then v else box k

/-- The loop of `arc4_transform`, arc4.c:25-42, with the remaining input; `size` is its length, at least one.  The input is a list:
an output buffer may be the input buffer, but not overlap it at a later position. -/
def loop (box : Byte → Byte) (proa prob vx vy : Byte) : List Byte → Ctx × List Byte
  | [] => (⟨box, proa, prob⟩, [])
  | d :: ds =>
    let box := put box prob vx
    let vx := vx + vy
    let box := put box proa vy
    let proa := proa + 1
    let tx := box proa
    let tb := prob + tx
    let ty := box tb
    let out := d ^^^ box vx
    match ds with
    | [] => (⟨box, proa, prob⟩, [out])
    | _ :: _ =>
      let r := loop box proa tb tx ty ds
      (r.1, out :: r.2)

/-- `bfdev_arc4_trans` and `arc4_transform`, arc4.c:10-56. -/
def trans (ctx : Ctx) (data : List Byte) : Ctx × List Byte :=
  if data.length = 0 then (ctx, [])
  else
    let vx := ctx.box ctx.proa
    let prob := ctx.prob + vx
    let vy := ctx.box prob
    loop ctx.box ctx.proa prob vx vy data

/-- One round of the key schedule, arc4.c:75-80: state is the box and `loop`; `count` is below 256. -/
def round (key : List Byte) (s : (Byte → Byte) × Byte) (count : Nat) : (Byte → Byte) × Byte :=
  let value := s.1 (BitVec.ofNat 8 count)
  let loop := s.2 + (key.getD (count % key.length) 0 + value)
  let box := put s.1 (BitVec.ofNat 8 count) (s.1 loop)
  (put box loop value, loop)

/-- `bfdev_arc4_setkey`, arc4.c:58-81: an empty key leaves the context alone. -/
def setkey (ctx : Ctx) (key : List Byte) : Ctx :=
  if key.length = 0 then ctx
  else
    let box0 : Byte → Byte := (List.range 256).foldl (fun b c => put b (BitVec.ofNat 8 c) (BitVec.ofNat 8 c)) ctx.box
    ⟨((List.range 256).foldl (round key) (box0, 0)).1, 1, 0⟩

end Bfdev.Arc4

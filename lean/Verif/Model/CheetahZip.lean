import Verif.Model.Waksman
import Verif.Model.Gates

set_option autoImplicit false

/-!
# Model of the bit packing of `mpc/cheetah/ot/ot_util.{h,cc}`

Arrays are functions on indices with an explicit length.  `w` is the width of the element type.
-/

namespace Spu.Model.CheetahZip
open Spu.Model.Waksman Spu.Model.Circ

/-- `makeBitsMask` — ot_util.h:27-39 -/
def makeBitsMask (w nbits : ℕ) : Option (BitVec w) :=
  let nbits := if nbits = 0 then w else nbits
  if nbits ≤ w then some (if nbits < w then (1 : BitVec w) <<< nbits - 1 else BitVec.allOnes w) else none

/-- `CeilDiv` — ot_util.h:41-44 -/
def ceilDiv (a b : ℕ) : ℕ := (a + b - 1) / b

variable {w : ℕ}

/-- one iteration of the loop of `ZipArray` — ot_util.h:61-71 (`has_done = i * bit_width`) -/
def zipStep (bw : ℕ) (mask : BitVec w) (inp : ℕ → BitVec w) (oup : ℕ → BitVec w) (i : ℕ) : ℕ → BitVec w :=
  let data := inp i &&& mask
  let p0 := i * bw / w
  let s0 := i * bw % w
  let oup := upd oup p0 (oup p0 ||| data <<< s0)
  if s0 + bw > w then upd oup (p0 + 1) (oup (p0 + 1) ||| data >>> (w - s0)) else oup

/-- `ZipArray` — ot_util.h:46-73: the packed words and their number; `cap` is the size of the output span -/
def zipArray (bw numel : ℕ) (inp : ℕ → BitVec w) (cap : ℕ) : Option ((ℕ → BitVec w) × ℕ) :=
  if 0 < bw ∧ bw ≤ w then
    let packed := ceilDiv (numel * bw) w
    if packed ≤ cap then
      (makeBitsMask w bw).map fun mask => ((List.range numel).foldl (zipStep bw mask inp) (fun _ => 0), packed)
    else none
  else none

/-- one iteration of the loop of `UnzipArray` — ot_util.h:88-98 -/
def unzipAt (bw : ℕ) (mask : BitVec w) (inp : ℕ → BitVec w) (i : ℕ) : BitVec w :=
  let p0 := i * bw / w
  let s0 := i * bw % w
  let o := inp p0 >>> s0
  let o := if s0 + bw > w then o ||| inp (p0 + 1) <<< (w - s0) else o
  o &&& mask

/-- `UnzipArray` — ot_util.h:75-100: `packed` words in, `n` elements out -/
def unzipArray (bw packed : ℕ) (inp : ℕ → BitVec w) (n : ℕ) : Option (ℕ → BitVec w) :=
  if 0 < bw ∧ bw ≤ w then
    if 0 < n ∧ n ≤ packed * w / bw then (makeBitsMask w bw).map fun mask => unzipAt bw mask inp else none
  else none

/-- the two reductions `OpenShare` accepts -/
inductive Op | add | xor
  deriving DecidableEq

/-- `OpenShare` — ot_util.cc:67-119: both parties' words; the result is the same for both. -/
def openShare (op : Op) (nbits numel : ℕ) (x : Fin 2 → ℕ → BitVec w) : Option (ℕ → BitVec w) :=
  let nbits := if nbits = 0 then w else nbits
  if nbits ≤ w then
    let space := match op with | .add => nbits + 1 | .xor => nbits
    let compact := ceilDiv (numel * space) w
    if space > nbits ∧ w % space ≠ 0 then
      -- `allReduce` of the words, then `maskArray`
      (makeBitsMask w nbits).map fun msk => fun i => (x 0 i + x 1 i) &&& msk
    else
      (zipArray space numel (x 0) compact).bind fun z0 => (zipArray space numel (x 1) compact).bind fun z1 =>
        if z0.2 = compact ∧ z1.2 = compact then
          let opened := fun i => match op with | .add => z0.1 i + z1.1 i | .xor => z0.1 i ^^^ z1.1 i
          (unzipArray space compact opened numel).map fun o =>
            if space > nbits ∧ nbits < w then fun i => o i &&& ((1 : BitVec w) <<< nbits - 1) else o
        else none
  else none

end Spu.Model.CheetahZip

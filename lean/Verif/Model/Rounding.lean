import Verif.Model.HalRing

set_option autoImplicit false

/-!
# Casts between integers and fixed point, and rounding (`kernel/hal/type_cast.cc`, `kernel/hal/fxp_base.cc`,
`kernel/hlo/basic_unary.cc`)

A fixed-point value with `f` fraction bits is a word of the ring.  `none` is undefined behaviour.  The constants 1.0 and
0.5 are encoded as `2^f` and `2^(f-1)` (C13).
-/

namespace Spu.Model.Rounding
open Spu.Model Spu.Model.HalRing

variable {w : ℕ}

/-- `int2fxp` (`type_cast.cc:26-32`) -/
def int2fxp (f : ℕ) (x : BitVec w) : BitVec w := x <<< f

/-- `fxp2int` (`type_cast.cc:49-61`); `(1 << fxp_bits) - 1` is computed in `int`, which is undefined from 31 bits on -/
def fxp2int (f : ℕ) (x : BitVec w) : Option (BitVec w) :=
  if f < 31 then some ((x + BitVec.ofNat w (2 ^ f - 1) * HalRing.msb x).sshiftRight f) else none

/-- `f_floor` (`fxp_base.cc:383-390`) -/
def floor (f : ℕ) (x : BitVec w) : BitVec w := (x.sshiftRight f) <<< f

/-- `f_ceil` (`fxp_base.cc:392-401`) -/
def ceil (f : ℕ) (x : BitVec w) : BitVec w := floor f (x + sub (BitVec.ofNat w (2 ^ f)) 1)

/-- `Round_AFZ` (`basic_unary.cc:94-108`) -/
def roundAfz (f : ℕ) (x : BitVec w) : Option (BitVec w) := do
  let half := sign x * BitVec.ofNat w (2 ^ (f - 1))
  let i ← fxp2int f (x + half)
  return int2fxp f i

/-- `Round_RNTE` (`basic_unary.cc:110-150`) -/
def roundRnte (f : ℕ) (x : BitVec w) : Option (BitVec w) := do
  let y := floor f x
  let a := (x >>> f) &&& 1
  let b := (x >>> (f - 1)) &&& 1
  let c ← vreduce HalRing.or ((List.range (f - 1)).map fun idx => (x >>> idx) &&& (1 : BitVec w))
  let comp := b &&& HalRing.or c a
  return y + int2fxp f comp

end Spu.Model.Rounding

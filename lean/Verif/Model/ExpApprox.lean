import Verif.Model.FxpDiv

set_option autoImplicit false

/-!
# Exponentials and sigmoids of secret fixed-point numbers (`kernel/hal/fxp_approx.cc`)

Words of the ring with `f` fraction bits, element by element.  `T b` is `_trunc` by `b` bits, a parameter: every protocol
has its own, with its own error.  The hints about signs passed to truncation are dropped.  A constant is the float of the
source, an exact dyadic number, encoded with rounding towards zero (C13).  `none` is an exception or undefined behaviour.
-/

namespace Spu.Model.ExpApprox
open Spu.Model Spu.Model.HalRing Spu.Model.FxpDiv

variable {w : ℕ}

/-- the float `m / 2^s` with `f` fraction bits -/
def encF (w f m s : ℕ) : BitVec w := BitVec.ofNat w (m * 2 ^ f / 2 ^ s)

/-- `f_square` (`fxp_base.cc:375-381`) -/
def fsquare (T : ℕ → BitVec w → BitVec w) (f : ℕ) (x : BitVec w) : BitVec w := T f (x * x)

/-- the loop of `exp_taylor` (`fxp_approx.cc:197-199`) -/
def squares (T : ℕ → BitVec w → BitVec w) (f : ℕ) : ℕ → BitVec w → BitVec w
  | 0, r => r
  | n + 1, r => squares T f n (fsquare T f r)

/-- `exp_taylor` (`fxp_approx.cc:189-202`); `n` is `fxp_exp_iters` -/
def expTaylor (T : ℕ → BitVec w → BitVec w) (f n : ℕ) (x : BitVec w) : Option (BitVec w) :=
  if n = 0 then none else some (squares T f n (T n x + kOne w f))

/-- `exp2_pade_normalized` (`fxp_approx.cc:238-260`) -/
def exp2Norm (T : ℕ → BitVec w → BitVec w) (f : ℕ) (x : BitVec w) : BitVec w :=
  let x2 := fmul (T f) x x
  let x3 := fmul (T f) x x2
  let x4 := fmul (T f) x x3
  let x5 := fmul (T f) x x4
  let p0 := encF w f 8388609 23
  let p1 := encF w f 1453635 21
  let p2 := encF w f 1007583 22
  let p3 := encF w f 14899259 28
  let p4 := encF w f 10327615 30
  let p5 := encF w f 11448067 33
  let res := x * p1
  let res := res + x2 * p2
  let res := res + x3 * p3
  let res := res + x4 * p4
  let res := res + x5 * p5
  T f res + p0

/-- one round of the loop of `exp2_pade` (`fxp_approx.cc:284-294`) -/
def scaleBit (xi : BitVec w) (ret : BitVec w) (idx : ℕ) : BitVec w :=
  let a := (xi >>> idx) &&& 1
  let a := maskNumberOfBits a 1
  let k := BitVec.ofNat w (2 ^ min (2 ^ idx) (w - 2) % 2 ^ 32)
  ret * (a * k + sub 1 a)

/-- `exp2_pade` (`fxp_approx.cc:268-310`); a shift by the width of the word or more is undefined -/
def exp2Pade (T : ℕ → BitVec w → BitVec w) (f : ℕ) (x : BitVec w) : Option (BitVec w) :=
  if f < w then
    let xmsb := x >>> (w - 1)
    let xi := x >>> f
    let fr := sub x (xi <<< f)
    let ret := (List.range 5).foldl (scaleBit xi) (exp2Norm T f fr)
    let inv := T 32 ret
    some (ret + xmsb * sub inv ret)
  else none

/-- `std::log2(std::exp(1.0F))` with `f` fraction bits -/
def kLog2e (w f : ℕ) : BitVec w := encF w f 12102203 23

/-- `kInputLimit` with `f` fraction bits -/
def kLimit (w f : ℕ) : BitVec w := encF w f 11629080 19

/-- `exp_pade` (`fxp_approx.cc:312-316`) -/
def expPade (T : ℕ → BitVec w → BitVec w) (f : ℕ) (x : BitVec w) : Option (BitVec w) :=
  exp2Pade T f (fmul (T f) x (kLog2e w f))

/-- the configured mode -/
inductive Mode
  | taylor
  | pade
  deriving DecidableEq

/-- `f_exp` (`fxp_approx.cc:451-486`) on a secret, without `EXP_PRIME` (C84); encoding `-kInputLimit` rounds towards zero too -/
def fExp (T : ℕ → BitVec w → BitVec w) (f : ℕ) (mode : Mode) (iters : ℕ) (x : BitVec w) : Option (BitVec w) :=
  match mode with
  | .taylor => expTaylor T f iters x
  | .pade => expPade T f (clamp x (-kLimit w f) (kLimit w f))

/-- `sigmoid_real` (`fxp_approx.cc:713-717`) with `reciprocal_goldschmidt` (`fxp_base.cc:240-265`) -/
def sigmoidReal (T : ℕ → BitVec w → BitVec w) (f cfg : ℕ) (mode : Mode) (iters : ℕ) (x : BitVec w) : Option (BitVec w) := do
  let e ← fExp T f mode iters (-x)
  reciprocal (T f) f cfg (kOne w f + e)

/-- `sigmoid_mm1` (`fxp_approx.cc:719-724`) -/
def sigmoidMm1 (T : ℕ → BitVec w → BitVec w) (f : ℕ) (x : BitVec w) : BitVec w :=
  encF w f 1 1 + fmul (T f) (encF w f 1 3) x

/-- `sigmoid_seg3` (`fxp_approx.cc:726-741`) -/
def sigmoidSeg3 (T : ℕ → BitVec w → BitVec w) (f : ℕ) (x : BitVec w) : BitVec w :=
  let upper := kOne w f
  let lower : BitVec w := 0
  let middle := sigmoidMm1 T f x
  let upperBound := encF w f 4 0
  let lowerBound := -encF w f 4 0
  let ret := mux (less upperBound x) upper middle
  mux (less x lowerBound) lower ret

end Spu.Model.ExpApprox

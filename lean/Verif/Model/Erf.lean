import Verif.Model.PolyApprox

set_option autoImplicit false

/-!
# Error function of a secret (`f_erf` in `kernel/hal/fxp_approx.cc`)

As in `Model/PolyApprox.lean`.
-/

namespace Spu.Model.Erf
open Spu.Model Spu.Model.HalRing Spu.Model.FxpDiv Spu.Model.PolyApprox

variable {w : ℕ}

/-- `reciprocal_goldschmidt_positive` (`fxp_base.cc:219-236`) -/
def recipPos (trunc : BitVec w → BitVec w) (f cfg : ℕ) (bAbs : BitVec w) : Option (BitVec w) := do
  let factor ← normFactor f bAbs
  let r ← recipNorm trunc f cfg bAbs factor
  return fmul trunc r factor

/-- `kErfCoefficient` (`fxp_approx.cc:793-794`); the array holds floats -/
def erfCoeffs : List (ℤ × ℕ) := [(1, 0), (9341319, 25), (1932643, 23), (16698833, 34), (5241739, 26)]

/-- `ErfImpl` (`fxp_approx.cc:792-805`) -/
def erfImpl (T : ℕ → BitVec w → BitVec w) (f cfg : ℕ) (x : BitVec w) : Option (BitVec w) := do
  let one := encZ w f 1 0
  let z ← polynomial T f x (erfCoeffs.map fun c => encZ w f c.1 c.2)
  let z := fmul (T f) z z
  let z := fmul (T f) z z
  let z ← recipPos (T f) f cfg z
  return sub one z

/-- `f_erf` (`fxp_approx.cc:811-832`) on a secret -/
def erf (T : ℕ → BitVec w → BitVec w) (f cfg : ℕ) (x : BitVec w) : Option (BitVec w) := do
  let pred := less x (encZ w f 0 0)
  let absX := HalRing.abs x
  let cond := less absX (encZ w f 3 0)
  let erf ← erfImpl T f cfg absX
  let erf := mux cond erf (encZ w f 1 0)
  return mux pred (-erf) erf

end Spu.Model.Erf

import Verif.Model.Trig

set_option autoImplicit false

/-!
# Hyperbolic tangent of a secret (`tanh_chebyshev` in `kernel/hal/fxp_approx.cc`)

As in `Model/Trig.lean`.
-/

namespace Spu.Model.Tanh
open Spu.Model Spu.Model.HalRing Spu.Model.FxpDiv Spu.Model.PolyApprox Spu.Model.Trig

variable {w : ℕ}

/-- `kCoeffs` of `tanh_chebyshev` (`fxp_approx.cc:384-387`); the array holds floats -/
def tanhCoeffs : List (ℤ × ℕ) := [(10497543, 23), (-12267459, 25), (11578387, 26), (-6001845, 26), (12805181, 28), (-3466883, 27),
  (15396171, 30), (-4585807, 29), (6574595, 30)]

/-- `f_tanh`, that is `tanh_chebyshev` (`fxp_approx.cc:382-407`, `548-552`); `0.2F` is `13421773 / 2^26` -/
def tanh (T : ℕ → BitVec w → BitVec w) (f : ℕ) (x : BitVec w) : BitVec w :=
  let normalized := clamp x (encZ w f (-5) 0) (encZ w f 5 0)
  let normalized := fmul (T f) (encZ w f 13421773 26) normalized
  let poly := cheb T f normalized 9
  T f (dot (tanhCoeffs.map fun c => encZ w f c.1 c.2) poly)

end Spu.Model.Tanh

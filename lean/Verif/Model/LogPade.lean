import Verif.Model.Log2

set_option autoImplicit false

/-!
# Natural logarithm of a secret through the binary one (`f_log`, `f_log1p` in `kernel/hal/fxp_approx.cc`, mode `LOG_PADE`)

As in `Model/Log2.lean`.
-/

namespace Spu.Model.LogPade
open Spu.Model Spu.Model.FxpDiv Spu.Model.PolyApprox
variable {w : ℕ}

/-- `f_log` of a secret in the mode `LOG_PADE` (`fxp_approx.cc:515-517`); the constant is the float `std::log(2.0F)` -/
def logPade (T : ℕ → BitVec w → BitVec w) (f cfg : ℕ) (x : BitVec w) : Option (BitVec w) := do
  let r ← Log2.log2 T f cfg x
  return fmul (T f) (encZ w f 11629080 24) r

/-- `f_log1p` in the mode `LOG_PADE` (`fxp_approx.cc:526-532`) -/
def log1pPade (T : ℕ → BitVec w → BitVec w) (f cfg : ℕ) (x : BitVec w) : Option (BitVec w) :=
  logPade T f cfg (encZ w f 1 0 + x)

end Spu.Model.LogPade

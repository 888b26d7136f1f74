import Verif.Model.PolyApprox

set_option autoImplicit false

/-!
# Binary logarithm of a secret (`log2_pade` in `kernel/hal/fxp_approx.cc`)

As in `Model/PolyApprox.lean`.
-/

namespace Spu.Model.Log2
open Spu.Model Spu.Model.HalRing Spu.Model.FxpDiv Spu.Model.PolyApprox

variable {w : ℕ}

/-- `log2_pade_normalized` (`fxp_approx.cc:94-119`); the constants are floats, those with `* 10` rounded after the product -/
def log2Norm (T : ℕ → BitVec w → BitVec w) (f cfg : ℕ) (x : BitVec w) : Option (BitVec w) :=
  let x2 := fmul (T f) x x
  let x3 := fmul (T f) x2 x
  let p := x * encZ w f (-2323293) 18 + x2 * encZ w f 3201225 19 + x3 * encZ w f 5045197 20
  let p := T f p + encZ w f (-8617897) 22
  let q := x * encZ w f 4765957 20 + x2 * encZ w f 6740081 20 + x3 * encZ w f 1 0
  let q := T f q + encZ w f 2965821 23
  FxpDiv.div (T f) f cfg p q

/-- `f_log2`, that is `log2_pade` (`fxp_approx.cc:125-149`, `534-540`) -/
def log2 (T : ℕ → BitVec w → BitVec w) (f cfg : ℕ) (x : BitVec w) : Option (BitVec w) := do
  let k ← popcount (prefixOr x) w
  let factor ← normFactor f x
  let norm := fmul (T f) x factor
  let r ← log2Norm T f cfg norm
  return r + (sub k (BitVec.ofNat w f)) <<< f

end Spu.Model.Log2

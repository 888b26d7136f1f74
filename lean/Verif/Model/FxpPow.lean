import Verif.Model.ExpApprox
import Verif.Model.PolyApprox

set_option autoImplicit false

/-!
# Power of fixed-point numbers (`power` in `kernel/hal/polymorphic.cc`)

As in `Model/PolyApprox.lean`; the branch where both are public is not modelled.
-/

namespace Spu.Model.FxpPow
open Spu.Model Spu.Model.HalRing Spu.Model.FxpDiv Spu.Model.ExpApprox Spu.Model.PolyApprox

variable {w : ℕ}

/-- `power` on fixed-point numbers (`polymorphic.cc:399-420`) -/
def power (T : ℕ → BitVec w → BitVec w) (f : ℕ) (x y : BitVec w) : Option (BitVec w) := do
  let xAbs := mux (msb x) (-x) x
  let l ← logMinmax T f xAbs
  let r ← expPade T f (fmul (T f) y l)
  let odd := (y >>> f) &&& 1
  return mux (msb x &&& odd) (-r) r

end Spu.Model.FxpPow

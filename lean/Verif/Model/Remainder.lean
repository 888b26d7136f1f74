import Verif.Model.FxpDiv
import Verif.Model.Rounding

set_option autoImplicit false

/-!
# Remainder of secrets (`Remainder` in `kernel/hlo/basic_binary.cc`)

As in `Model/FxpDiv.lean`; `logical_not` is the subtraction from one (`polymorphic.cc:151-162`), which on a bit is also the exclusive or.
-/

namespace Spu.Model.Remainder
open Spu.Model Spu.Model.HalRing Spu.Model.FxpDiv

variable {w : ℕ}

/-- `Remainder` of fixed-point numbers (`basic_binary.cc:53-71`) -/
def remFxp (trunc : BitVec w → BitVec w) (f cfg : ℕ) (a b : BitVec w) : Option (BitVec w) := do
  let q ← FxpDiv.div trunc f cfg a b
  let q := mux (sub 1 (less q 0)) (Rounding.floor f q) (Rounding.ceil f q)
  return sub a (fmul trunc q b)

/-- `Remainder` of integers -/
def remInt (trunc : BitVec w → BitVec w) (f cfg : ℕ) (x y : BitVec w) : Option (BitVec w) := do
  let q ← idivSecret trunc f cfg x y
  return sub x (q * y)

end Spu.Model.Remainder

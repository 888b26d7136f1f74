import Verif.Model.PolyApprox

set_option autoImplicit false

/-!
# The angle of a secret point (`f_atan2` in `kernel/hal/fxp_approx.cc`)

As in `Model/PolyApprox.lean`: words of the ring with `f` fraction bits, element by element; `T b` is `_trunc` by `b` bits.
-/

namespace Spu.Model.Atan2
open Spu.Model Spu.Model.HalRing Spu.Model.FxpDiv Spu.Model.PolyApprox

variable {w : ℕ}

/-- `kAtanCoefficientSmall`, `kAtanCoefficientLarge` (`fxp_approx.cc:836-847`); the arrays hold floats -/
def atanSmall : List (ℤ × ℕ) := [(14050327, 41), (16766853, 24), (10384919, 30), (-13036263, 25), (1161891, 23), (4417271, 26), (-10600087, 28)]
def atanLarge : List (ℤ × ℕ) := [(16446219, 51), (1048575, 20), (606877, 34), (-5602423, 24), (2940209, 29), (11396473, 26), (3533681, 25),
  (-3179781, 23), (5527531, 24), (-4487745, 25), (2955899, 27)]

/-- `AtanApproxLocal` (`fxp_approx.cc:834-856`) -/
def atanLocal (T : ℕ → BitVec w → BitVec w) (f : ℕ) (x : BitVec w) : Option (BitVec w) :=
  polynomial T f x ((if f ≤ 20 then atanSmall else atanLarge).map fun c => encZ w f c.1 c.2)

/-- `div_goldschmidt_general` (`fxp_base.cc:170-217`) when the divisor is known to be positive -/
def divPos (trunc : BitVec w → BitVec w) (f cfg : ℕ) (a b : BitVec w) : Option (BitVec w) := do
  let isNeg : BitVec w := 0
  let factor ← normFactor f b
  let r ← recipNorm trunc f cfg b factor
  let r := fmul trunc r a
  let r := fmul trunc r factor
  return mux isNeg (-r) r

/-- `atan2_minimax` (`fxp_approx.cc:858-903`); `M_PI` is the double `884279719003555 / 2^48` -/
def atan2 (T : ℕ → BitVec w → BitVec w) (f cfg : ℕ) (y x : BitVec w) : Option (BitVec w) := do
  let msbX := HalRing.msb x
  let msbY := HalRing.msb y
  let absX := mux msbX (-x) x
  let absY := mux msbY (-y) y
  let cmp := less absX absY
  let bigger := mux cmp absY absX
  let smaller := sub (absX + absY) bigger
  let tangent ← divPos (T f) f cfg smaller bigger
  let theta ← atanLocal T f tangent
  let theta := mux cmp (sub (encZ w f 884279719003555 49) theta) theta
  let theta := mux msbX (sub (encZ w f 884279719003555 48) theta) theta
  return mux msbY (-theta) theta

end Spu.Model.Atan2

import Verif.Model.HalRing
import Verif.Model.Semi2kConv
import Verif.Model.Rounding
import Verif.Model.IntPow

set_option autoImplicit false

/-!
# Division of fixed-point numbers (`kernel/hal/fxp_base.cc`)

Words of the ring with `f` fraction bits.  Truncation after a product is a parameter: every protocol has its own, with
its own error.  `none` is undefined behaviour or an exception.  The hints about signs passed to truncation are dropped.
-/

namespace Spu.Model.FxpDiv
open Spu.Model Spu.Model.HalRing Spu.Model.Rounding

variable {w : ℕ}

/-- `2.9142F` with `f` fraction bits: the float is `12223041 / 2^22`, and encoding rounds towards zero (C13) -/
def kGuess (w f : ℕ) : BitVec w := BitVec.ofNat w (12223041 * 2 ^ f / 2 ^ 22)

/-- `1.0F` with `f` fraction bits -/
def kOne (w f : ℕ) : BitVec w := BitVec.ofNat w (2 ^ f)

/-- `f_mul` (`fxp_base.cc:312-319`) -/
def fmul (trunc : BitVec w → BitVec w) (x y : BitVec w) : BitVec w := trunc (x * y)

/-- the iteration (`fxp_base.cc:132-138`), `n` rounds left -/
def iterate (trunc : BitVec w → BitVec w) (f : ℕ) : ℕ → BitVec w → BitVec w → BitVec w
  | 0, r, _ => r
  | n + 1, r, e =>
    let r := fmul trunc r (e + kOne w f)
    iterate trunc f n r (if n = 0 then e else fmul trunc e e)

/-- `num_iters` (`fxp_base.cc:122-130`) -/
def numIters (cfg f : ℕ) : Option ℕ :=
  let n := if 30 ≤ f then max cfg 3 else cfg
  if n = 0 then none else some n

/-- `reciprocal_goldschmidt_normalized_approx` (`fxp_base.cc:105-141`) -/
def recipNorm (trunc : BitVec w → BitVec w) (f cfg : ℕ) (bAbs factor : BitVec w) : Option (BitVec w) := do
  let c := fmul trunc bAbs factor
  let g := sub (kGuess w f) (2 * c)
  let e := sub (kOne w f) (fmul trunc c g)
  let n ← numIters cfg f
  return iterate trunc f n g e

/-- the power of two that normalises (`fxp_base.cc:191-197`) -/
def normFactor (f : ℕ) (bAbs : BitVec w) : Option (BitVec w) := do
  let factor ← Semi2kConv.bitrev (highestOneBit bAbs) 0 (2 * f)
  return maskNumberOfBits factor (2 * f)

/-- `div_goldschmidt` (`fxp_base.cc:170-217`), with nothing known about the sign of the divisor -/
def div (trunc : BitVec w → BitVec w) (f cfg : ℕ) (a b : BitVec w) : Option (BitVec w) := do
  let isNeg := HalRing.msb b
  let bAbs := mux isNeg (-b) b
  let factor ← normFactor f bAbs
  let r ← recipNorm trunc f cfg bAbs factor
  let r := fmul trunc r a
  let r := fmul trunc r factor
  return mux isNeg (-r) r

/-- `reciprocal_goldschmidt` (`fxp_base.cc:240-265`) -/
def reciprocal (trunc : BitVec w → BitVec w) (f cfg : ℕ) (b : BitVec w) : Option (BitVec w) := do
  let isNeg := HalRing.msb b
  let bAbs := mux isNeg (-b) b
  let factor ← normFactor f bAbs
  let r ← recipNorm trunc f cfg bAbs factor
  let r := fmul trunc r factor
  return mux isNeg (-r) r

/-- the quotient inside `idiv` (`polymorphic.cc:431-438`) on secret integers -/
def approxQ (trunc : BitVec w → BitVec w) (f cfg : ℕ) (a b : BitVec w) : Option (BitVec w) := do
  let q ← div trunc f cfg (int2fxp f a) (int2fxp f b)
  fxp2int f q

/-- `idiv` (`polymorphic.cc:422-450`) on secret integers -/
def idivSecret (trunc : BitVec w → BitVec w) (f cfg : ℕ) (x y : BitVec w) : Option (BitVec w) := do
  let q ← approxQ trunc f cfg (x * sign x) (y * sign y)
  return IntPow.idiv (fun _ _ => q) x y

end Spu.Model.FxpDiv

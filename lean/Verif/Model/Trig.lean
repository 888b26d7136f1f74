import Verif.Model.PolyApprox
import Verif.Model.Rounding

set_option autoImplicit false

/-!
# Sine and cosine of a secret (`sin_chebyshev`, `cos_chebyshev` in `kernel/hal/fxp_approx.cc`)

As in `Model/PolyApprox.lean`: words of the ring with `f` fraction bits, element by element; `T b` is `_trunc` by `b` bits.  The
reshaping and the concatenation of the polynomials along the first dimension make the product of matrices the inner product of `dot`.
-/

namespace Spu.Model.Trig
open Spu.Model Spu.Model.HalRing Spu.Model.FxpDiv Spu.Model.PolyApprox

variable {w : ℕ}

/-- the loop of `compute_chebyshev_polynomials` (`fxp_approx.cc:373-377`), `n` rounds left -/
def chebLoop (T : ℕ → BitVec w → BitVec w) (f : ℕ) (y : BitVec w) : ℕ → List (BitVec w) → List (BitVec w)
  | 0, l => l
  | n + 1, l => chebLoop T f y n (l ++ [sub (fmul (T f) y (l.getD (l.length - 1) 0)) (l.getD (l.length - 2) 0)])

/-- `compute_chebyshev_polynomials` (`fxp_approx.cc:351-380`) -/
def cheb (T : ℕ → BitVec w → BitVec w) (f : ℕ) (x : BitVec w) (terms : ℕ) : List (BitVec w) :=
  let y := sub (BitVec.ofNat w 4 * fmul (T f) x x) (encZ w f 2 0)
  let z := sub y (kOne w f)
  chebLoop T f y (terms - 2) [x, fmul (T f) x z]

/-- the inner product of `_mmul` -/
def dot (cs ps : List (BitVec w)) : BitVec w := (List.zipWith (· * ·) cs ps).foldl (· + ·) 0

/-- `kCoeffs` of `sin_chebyshev` (`fxp_approx.cc:412-414`); the array holds floats -/
def sinCoeffs : List (ℤ × ℕ) := [(-10161339, 27), (-14314931, 24), (4152007, 24), (-1825257, 26), (7194095, 32)]

/-- the angle between `-π` and `π` (`fxp_approx.cc:421-426`); the constants are doubles -/
def reduce (T : ℕ → BitVec w → BitVec w) (f : ℕ) (x : BitVec w) : BitVec w :=
  let normalized := fmul (T f) (x + encZ w f 884279719003555 48) (encZ w f 5734161139222659 55)
  let normalized := fmul (T f) (Rounding.floor f normalized) (encZ w f 884279719003555 47)
  sub x normalized

/-- `sin_chebyshev` (`fxp_approx.cc:409-441`) -/
def sine (T : ℕ → BitVec w → BitVec w) (f : ℕ) (x : BitVec w) : BitVec w :=
  let normalized := fmul (T f) (encZ w f 4272283 24) (reduce T f x)
  let poly := cheb T f normalized 5
  T f (dot (sinCoeffs.map fun c => encZ w f c.1 c.2) poly)

/-- `cos_chebyshev` (`fxp_approx.cc:443-447`) -/
def cosine (T : ℕ → BitVec w → BitVec w) (f : ℕ) (x : BitVec w) : BitVec w := sine T f (sub (encZ w f 884279719003555 49) x)

end Spu.Model.Trig

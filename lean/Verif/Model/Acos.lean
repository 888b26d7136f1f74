import Verif.Model.PolyApprox

set_option autoImplicit false

/-!
# Arc cosine and arc sine of a secret (`f_acos`, `f_asin` in `kernel/hal/fxp_approx.cc`)

As in `Model/PolyApprox.lean`: words of the ring with `f` fraction bits, element by element; `T b` is `_trunc` by `b` bits.
-/

namespace Spu.Model.Acos
open Spu.Model Spu.Model.HalRing Spu.Model.FxpDiv Spu.Model.PolyApprox

variable {w : ℕ}

/-- `kAcosCoefficientSmall`, `kAcosCoefficientLarge` (`fxp_approx.cc:930-937`); the arrays hold floats -/
def acosSmall : List (ℤ × ℕ) := [(3294057, 21), (-3558689, 24), (9967143, 27), (-628451, 25)]
def acosLarge : List (ℤ × ℕ) := [(6588397, 22), (-7200741, 25), (5971279, 26), (-6734281, 27), (2073119, 26), (-4587059, 28), (14323909, 31),
  (-2711179, 31)]

/-- `acos_minimax` (`fxp_approx.cc:923-954`); `lower` is `enable_lower_accuracy_rsqrt`, used by `f_sqrt` -/
def acos (T : ℕ → BitVec w → BitVec w) (f : ℕ) (lower : Bool) (x : BitVec w) : Option (BitVec w) := do
  let msb := HalRing.msb x
  let absX := mux msb (-x) x
  let poly ← polynomial T f absX ((if f ≤ 20 then acosSmall else acosLarge).map fun c => encZ w f c.1 c.2)
  let root ← PolyApprox.sqrt T f lower (sub (kOne w f) absX)
  let ret := fmul (T f) root poly
  return mux msb (sub (encZ w f 884279719003555 48) ret) ret

/-- `f_asin` (`fxp_approx.cc:970-982`) on secrets -/
def asin (T : ℕ → BitVec w → BitVec w) (f : ℕ) (lower : Bool) (x : BitVec w) : Option (BitVec w) := do
  let a ← acos T f lower x
  return sub (encZ w f 884279719003555 49) a

end Spu.Model.Acos

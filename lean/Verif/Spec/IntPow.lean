import Mathlib.Data.Int.Notation
import Mathlib.Algebra.Order.Ring.Int

set_option autoImplicit false

/-! # Power and division of integers, as StableHLO defines them -/

namespace Spu.Spec.IntPow

/-- StableHLO's power of integers: a negative exponent gives 0 unless the base is 1 or -1 -/
def intPower (x y : ℤ) : ℤ :=
  if 0 ≤ y then x ^ y.toNat else if x = 1 ∨ x = -1 then x ^ (-y).toNat else 0

/-- division rounding towards zero -/
def intDiv (x y : ℤ) : ℤ :=
  if 0 ≤ x then (if 0 < y then x / y else -(x / (-y))) else (if 0 < y then -((-x) / y) else (-x) / (-y))

end Spu.Spec.IntPow

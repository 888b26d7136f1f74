/-
Specification of a product with a constant: the number the result stands for is close to the product.
-/
import Verif.Model.SmallConst

set_option autoImplicit false

namespace Spu.Spec.SmallConst

open Spu.SmallConst

/-- The number a runtime value stands for. -/
def num (f : ℕ) (v : RtVal) : ℚ := if v.fxp then v.x / 2 ^ f else v.x

/-- A truncation in a ring of `K` bits: for fewer bits than that and a number in the safe range, it is off
by at most one from the quotient; a shift by the width of the ring or more is not defined. -/
def Truncates (K : ℕ) (tr : ℕ → ℤ → Option ℤ) : Prop :=
  (∀ b x, b < K → |x| < 2 ^ (K - 2) → ∃ y, tr b x = some y ∧ |(y : ℚ) - x / 2 ^ b| ≤ 1) ∧
    ∀ b x, K ≤ b → tr b x = none

end Spu.Spec.SmallConst

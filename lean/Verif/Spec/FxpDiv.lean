import Verif.Spec.Rounding
import Mathlib.Algebra.Order.Ring.Abs

set_option autoImplicit false

/-! # Truncation with a bounded error -/

namespace Spu.Spec.FxpDiv

/-- `trunc` divides every word of magnitude below `R` by `2^f`, with an error of at most `d` units -/
def TruncOk {w : ℕ} (f d : ℕ) (R : ℤ) (trunc : BitVec w → BitVec w) : Prop :=
  ∀ v : BitVec w, |v.toInt| < R → |2 ^ f * (trunc v).toInt - v.toInt| ≤ d * 2 ^ f

end Spu.Spec.FxpDiv

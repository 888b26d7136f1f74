import Mathlib.Algebra.Order.Floor.Ring
import Mathlib.Data.Rat.Floor
import Mathlib.Algebra.Group.Int.Even

set_option autoImplicit false

/-! # Fixed-point numbers and rounding of rationals -/

namespace Spu.Spec.Rounding

/-- the number a word with `f` fraction bits stands for -/
def val {w : ℕ} (f : ℕ) (x : BitVec w) : ℚ := x.toInt / 2 ^ f

/-- `z` is `q` rounded towards zero -/
def TowardZero (q : ℚ) (z : ℤ) : Prop := if 0 ≤ q then z = ⌊q⌋ else z = ⌈q⌉

/-- `z` is the integer nearest to `q`, ties away from zero -/
def NearestAway (q : ℚ) (z : ℤ) : Prop := |q - z| ≤ 1 / 2 ∧ (|q - z| = 1 / 2 → |q| < |(z : ℚ)|)

/-- `z` is the integer nearest to `q`, ties to even -/
def NearestEven (q : ℚ) (z : ℤ) : Prop := |q - z| ≤ 1 / 2 ∧ (|q - z| = 1 / 2 → Even z)

end Spu.Spec.Rounding

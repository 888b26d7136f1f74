import Mathlib.Data.BitVec
import Mathlib.Analysis.SpecialFunctions.Pow.Real

set_option autoImplicit false

/-! # Specification of the exponentiation over a Mersenne prime -/

namespace Spu.Spec.ExpPrime

/-- exactly one of the two shares is negative as a signed number -/
def OneNegative {w : ℕ} (x y : BitVec w) : Prop := (x.toInt < 0 ∧ 0 ≤ y.toInt) ∨ (0 ≤ x.toInt ∧ y.toInt < 0)

/-- `F` approximates `2^(fxp + f/2^t)` with relative error `δ` by multiples of `2^e`
(a `float` has 24 significant bits, so `roundf` returns multiples of `2^(fxp - 23)` here). -/
structure Rounded {w : ℕ} (fxp t e : ℕ) (δ : ℝ) (F : BitVec w → BitVec w) : Prop where
  multiple : ∀ f : BitVec w, f.toNat < 2 ^ t → 2 ^ e ∣ (F f).toNat
  le : ∀ f : BitVec w, f.toNat < 2 ^ t → (F f).toNat ≤ 2 ^ (fxp + 1)
  close : ∀ f : BitVec w, f.toNat < 2 ^ t →
    |((F f).toNat : ℝ) - (2 : ℝ) ^ ((fxp : ℝ) + (f.toNat : ℝ) / 2 ^ t)| ≤ δ * (2 : ℝ) ^ ((fxp : ℝ) + (f.toNat : ℝ) / 2 ^ t)

end Spu.Spec.ExpPrime

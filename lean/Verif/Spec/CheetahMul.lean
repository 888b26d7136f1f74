import Verif.Spec.ModSwitch

set_option autoImplicit false

/-!
Specification of the multiplication of private arrays: how far a mask is from the point where its switch down rounds
differently.
-/

namespace Spu.Spec.Cmul

open Spu.Model.Ms Spu.Spec.Ms

/-- The mask `R` modulo `Q` lies at least `β` away from every point where `2^k R / Q` rounds differently. -/
def Clear (c : Ctx) (β : ℚ) (R : ℕ) : Prop :=
  β ≤ Int.fract ((2 : ℚ) ^ c.k * R / c.Q + 1 / 2) ∧ Int.fract ((2 : ℚ) ^ c.k * R / c.Q + 1 / 2) ≤ 1 - β

end Spu.Spec.Cmul

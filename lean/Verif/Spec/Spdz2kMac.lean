import Mathlib.Data.ZMod.Basic
import Mathlib.Algebra.BigOperators.Fin

set_option autoImplicit false

/-!
Specification of authenticated sharing modulo powers of two.
-/

namespace Spu.Spec.Spdz

/-- Congruence modulo `2^m` in the ring modulo `2^w`. -/
def Eqv {w : ℕ} (m : ℕ) (a b : ZMod (2 ^ w)) : Prop := ∃ z : ZMod (2 ^ w), a = b + 2 ^ m * z

/-- Shares `val` of `x` with MAC shares `mac` under the shared key `key`, modulo `2^m`. -/
structure Auth {ι : Type} [Fintype ι] {w : ℕ} (m : ℕ) (key : ι → ZMod (2 ^ w)) (x : ZMod (2 ^ w))
    (val mac : ι → ZMod (2 ^ w)) : Prop where
  value : Eqv m (∑ i, val i) x
  tag : Eqv m (∑ i, mac i) ((∑ i, key i) * x)

end Spu.Spec.Spdz

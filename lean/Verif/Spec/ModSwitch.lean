import Verif.Model.ModSwitch
import Mathlib.Algebra.Order.Floor.Ring
import Mathlib.Data.Rat.Floor

set_option autoImplicit false

/-!
Specification of the modulus switch.  Nothing here refers to how the switch is computed: moduli that SEAL accepts,
the nearest integer, and the centred representative of a ring element.
-/

namespace Spu.Spec.Ms

open Spu.Model.Ms

/-- Moduli as SEAL provides them: odd, below `2^61`, pairwise coprime; `gamma` is coprime to all of them. -/
structure CtxOk (c : Ctx) : Prop where
  lo : 2 ≤ c.k
  hi : c.k ≤ 128
  pos : 0 < c.L
  one : ∀ l, l < c.L → 1 < c.q l
  lt : ∀ l, l < c.L → c.q l < 2 ^ 61
  odd : ∀ l, l < c.L → c.q l % 2 = 1
  cop : ∀ i, i < c.L → ∀ j, j < c.L → i ≠ j → Nat.Coprime (c.q i) (c.q j)
  gone : 1 < c.g
  glt : c.g < 2 ^ 61
  godd : c.g % 2 = 1
  gcop : ∀ l, l < c.L → Nat.Coprime (c.q l) c.g

/-- The nearest integer, halves upwards. -/
def near (a : ℚ) : ℤ := ⌊a + 1 / 2⌋

/-- The representative of `x` modulo `2^k` in `(-2^(k-1), 2^(k-1)]`. -/
def centred (k x : ℕ) : ℤ := if 2 ^ (k - 1) < x then (x : ℤ) - 2 ^ k else x

end Spu.Spec.Ms

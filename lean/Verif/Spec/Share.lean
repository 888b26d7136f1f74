import Mathlib.Algebra.BigOperators.Fin
import Mathlib.Data.BitVec

set_option autoImplicit false

/-!
# Specification vocabulary for secret sharing

`total s` is the value additively shared by the vector of shares `s`;
`xorAll s` is the value xor-shared by `s`.
-/

namespace Spu.Spec

open Finset

/-- the secret behind an additive sharing: the sum of all parties' shares -/
def total {R : Type*} [AddCommMonoid R] {n : ℕ} (s : Fin n → R) : R := ∑ i, s i

/-- the secret behind a boolean sharing: the xor of all parties' shares -/
def xorAll {w n : ℕ} (s : Fin n → BitVec w) : BitVec w :=
  (List.ofFn s).foldr (· ^^^ ·) 0

end Spu.Spec

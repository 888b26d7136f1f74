/-
Specification of `case`, as StableHLO gives it: the branch with the number of the index, or the last
one if there is no such branch.
-/
import Verif.Model.CaseLower

set_option autoImplicit false

namespace Spu.Spec.CaseLower

open Spu.CaseLower

/-- The branch taken. -/
def taken {R : Type} (idx : ℤ) (bs : List (Outs R)) (o : Outs R) : Prop :=
  (∃ n : ℕ, idx = n ∧ bs[n]? = some o) ∨
    ((∀ n : ℕ, n < bs.length → idx ≠ n) ∧ bs.getLast? = some o)

end Spu.Spec.CaseLower

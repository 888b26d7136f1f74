import Verif.Model.Cache

set_option autoImplicit false

/-!
# What a history of cache requests means

Histories are listed newest request first.
-/

namespace Spu.Spec.Cache
open Spu.Model.Cache

variable {α D : Type}

/-- is buffer `b` enabled after the history: the last enable/disable of it was an enable -/
def enabled : List (Op α D) → ℕ → Bool
  | [], _ => false
  | .enable x :: h, b => if x.buf = b then true else enabled h b
  | .disable x :: h, b => if x.buf = b then false else enabled h b
  | .set _ _ _ :: h, b => enabled h b

/-- what is remembered for the array view `y`: the first store to it since its buffer was (re-)enabled -/
def stored : List (Op α D) → View → Option (D × List α)
  | [], _ => none
  | .enable _ :: h, y => stored h y
  | .disable x :: h, y => if x.buf = y.buf then none else stored h y
  | .set x d v :: h, y =>
    if x = y ∧ enabled h x.buf ∧ stored h y = none then some (d, v) else stored h y

end Spu.Spec.Cache

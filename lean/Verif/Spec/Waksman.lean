import Mathlib.Data.Nat.Notation
import Mathlib.Data.Int.Notation

set_option autoImplicit false

/-!
# Specification: a packet travelling through a switching network

The meaning of a topology and a routing as documented at `waksman_net.h:126-201` and used by `waksman_net_test.cc:37-79`: a switch occupies two adjacent rows
of a column, its setting is recorded at the upper one; where both destinations agree there is just a wire.
-/

namespace Spu.Spec.Waksman

/-- the setting of the switch at row `r`, recorded at `r` or at `r - 1` but not at both -/
def setting (rt : ℕ → ℕ → Option Bool) (c r : ℕ) : Option Bool :=
  match rt c r, (if r = 0 then none else rt c (r - 1)) with
  | some b, none => some b
  | none, some b => some b
  | _, _ => none

/-- row `r` of column `c` to the row of column `c + 1` -/
def hop (nb : ℕ → ℕ → ℤ × ℤ) (rt : ℕ → ℕ → Option Bool) (c r : ℕ) : Option ℕ :=
  let next : Option ℤ :=
    if (nb c r).1 = (nb c r).2 then some (nb c r).1
    else (setting rt c r).map fun cross => if cross then (nb c r).2 else (nb c r).1
  next.bind fun z => if 0 ≤ z then some z.toNat else none

/-- `k` columns from column `c`, row `r` on -/
def travel (nb : ℕ → ℕ → ℤ × ℤ) (rt : ℕ → ℕ → Option Bool) : ℕ → ℕ → ℕ → Option ℕ
  | _, 0, r => some r
  | c, k + 1, r => (hop nb rt c r).bind fun r' => travel nb rt (c + 1) k r'

end Spu.Spec.Waksman

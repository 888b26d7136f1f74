import Mathlib.Data.BitVec

set_option autoImplicit false

/-! What two shares modulo `2^k - 1` stand for, and the most significant bit of a word. -/

namespace Spu.Spec.Snn

variable {k : ℕ}

/-- The value, in `[0, 2^k - 2]`, that two words share modulo `2^k - 1`. -/
def valM1 (a : Fin 2 → BitVec k) : ℕ := ((a 0).toNat + (a 1).toNat) % (2 ^ k - 1)

/-- Bit `i` of a number, as a number. -/
def bitN (v i : ℕ) : ℕ := if v.testBit i then 1 else 0

end Spu.Spec.Snn

import Verif.Model.HalRing

set_option autoImplicit false

/-!
# Power and division of integers (`kernel/hal/polymorphic.cc`)

Values are words of the ring, as in `Model/HalRing.lean`.  The data type is not modelled: a shared integer of any type is
a word of the ring.
-/

namespace Spu.Model.IntPow
open Spu.Model Spu.Model.Bits Spu.Model.HalRing

variable {w : ℕ}

/-- the bits of the exponent that are read, `y_bits` (`polymorphic.cc:374`) -/
def yBits (w : ℕ) : ℕ := log2Ceil (w - 1)

/-- the loop body (`polymorphic.cc:382-391`), on the pair of `ret` and `base` -/
def powStep (n : ℕ) (y : BitVec w) (s : BitVec w × BitVec w) (idx : ℕ) : BitVec w × BitVec w :=
  let curPow := mux ((y >>> idx) &&& 1) s.2 1
  (curPow * s.1, if idx < n - 1 then s.2 * s.2 else s.2)

/-- `power` on integers (`polymorphic.cc:336-396`) -/
def power (x y : BitVec w) : BitVec w :=
  let msbY := y >>> (w - 1)
  let xAbs1 := equal (HalRing.abs x) 1
  let ret := ((List.range (yBits w)).foldl (powStep (yBits w) y) (1, x)).1
  mux (msbY &&& ~~~xAbs1) 0 ret

/-- `idiv` (`polymorphic.cc:422-450`); `approx a b` is the quotient computed in fixed point, cast back to the integers -/
def idiv (approx : BitVec w → BitVec w → BitVec w) (x y : BitVec w) : BitVec w :=
  let signX := sign x
  let signY := sign y
  let absX := x * signX
  let absY := y * signY
  let approxQ := approx absX absY
  let approxX := absY * approxQ
  let v1 := sub 1 (less absX (approxX + absY))
  let v2 := less absX approxX
  let q := sub (approxQ + v1) v2
  q * (signX * signY)

end Spu.Model.IntPow

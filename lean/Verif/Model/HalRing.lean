import Verif.Model.Bits
import Verif.Model.Vectorize

set_option autoImplicit false

/-!
# Ring-level functions (`kernel/hal/ring.cc`, `kernel/hal/integer.cc`, `kernel/hal/fxp_base.cc`)

Values are the words a shared value stands for (the kernels that compute on shares are treated elsewhere); all functions
act element by element, so a value is one `BitVec w`.  `_prefer_b` does not change the word.  `_msb` returns 0 or 1.
-/

namespace Spu.Model.HalRing
open Spu.Model Spu.Model.Bits

variable {w : ℕ}

/-- `_msb` -/
def msb (x : BitVec w) : BitVec w := x >>> (w - 1)

/-- `_sub` (`ring.cc:291-294`) -/
def sub (x y : BitVec w) : BitVec w := x + -y

/-- `_less` (`ring.cc:457-463`) -/
def less (x y : BitVec w) : BitVec w := msb (sub x y)

/-- `_equal` without an equality kernel (`ring.cc:422-439`) -/
def equal (x y : BitVec w) : BitVec w := (less x y ^^^ 1) &&& (less y x ^^^ 1)

/-- `_or` (`ring.cc:417-420`) -/
def or (x y : BitVec w) : BitVec w := x ^^^ (y ^^^ (x &&& y))

/-- `_mux` (`ring.cc:465-470`) -/
def mux (pred a b : BitVec w) : BitVec w := b + pred * sub a b

/-- `_clamp` (`ring.cc:472-479`) -/
def clamp (x minv maxv : BitVec w) : BitVec w :=
  let res := mux (less x minv) minv x
  mux (less res maxv) res maxv

/-- `_clamp_lower` (`ring.cc:482-486`) -/
def clampLower (x minv : BitVec w) : BitVec w := mux (less x minv) minv x

/-- `_clamp_upper` (`ring.cc:488-492`) -/
def clampUpper (x maxv : BitVec w) : BitVec w := mux (less x maxv) x maxv

/-- `_sign` (`ring.cc:441-455`) -/
def sign (x : BitVec w) : BitVec w := sub 1 (2 * msb x)

/-- `i_abs` (`integer.cc:68-75`) -/
def abs (x : BitVec w) : BitVec w := sign x * x

/-- the loop of `_bit_parity` (`ring.cc:503-506`) -/
def parityLoop (ret : BitVec w) (bits : ℕ) : BitVec w :=
  if _h : 1 < bits then parityLoop (ret ^^^ (ret >>> (bits / 2))) (bits / 2) else ret
termination_by bits
decreasing_by omega

/-- `_bit_parity` (`ring.cc:498-510`); `absl::has_single_bit` is checked -/
def bitParity (x : BitVec w) (bits : ℕ) : Option (BitVec w) :=
  if 2 ^ Nat.log2 bits = bits then some (parityLoop x bits &&& 1) else none

/-- `_popcount` (`ring.cc:513-536`) -/
def popcount (x : BitVec w) (bits : ℕ) : Option (BitVec w) :=
  vreduce (· + ·) ((List.range bits).map fun i => (x >>> i) &&& (1 : BitVec w))

/-- `_prefix_or` (`ring.cc:548-559`): `absl::bit_width(n) - 1` is `Nat.log2 n` -/
def prefixOr (x : BitVec w) : BitVec w :=
  (List.range (Nat.log2 w)).foldl (fun b i => or b (b >>> (2 ^ i))) x

/-- `_eqz` (`ring.cc:297-311`) -/
def eqz (x : BitVec w) : BitVec w := (prefixOr x &&& 1) ^^^ 1

/-- `_bitdeintl` (`ring.cc:561-585`) -/
def bitdeintl (x : BitVec w) : Option (BitVec w) :=
  (List.range (log2Ceil w - 1)).foldlM (fun out i => do
    let keep := (← keepMasks[i]?).setWidth w
    let move := (← swapMasks[i]?).setWidth w
    let shift := 1 <<< i
    return ((out &&& keep) ^^^ ((out >>> shift) &&& move)) ^^^ ((out &&& move) <<< shift)) x

/-- `highestOneBit` (`fxp_base.cc:81-85`) -/
def highestOneBit (x : BitVec w) : BitVec w := prefixOr x ^^^ (prefixOr x >>> 1)

/-- `maskNumberOfBits` (`fxp_base.cc:96-102`) -/
def maskNumberOfBits (x : BitVec w) (nbits : ℕ) : BitVec w := x &&& sub ((1 : BitVec w) <<< nbits) 1

end Spu.Model.HalRing

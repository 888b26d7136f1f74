import Mathlib.Data.BitVec

set_option autoImplicit false

/-!
# `core/bit_utils.h`

Machine words are `BitVec w` (`w` = 8, 16, 32, 64 or 128 in the code).
-/

namespace Spu.Model.Bits

/-- `Log2Floor` (`bit_utils.h:24-26`): `63 - countl_zero(n)` is the position of the top set bit. -/
def log2Floor (n : ℕ) : ℕ := if n ≤ 1 then 0 else Nat.log2 n

/-- `Log2Ceil` (`bit_utils.h:28-30`): `64 - countl_zero(n - 1)` is the bit width of `n - 1`. -/
def log2Ceil (n : ℕ) : ℕ := if n ≤ 1 then 0 else Nat.log2 (n - 1) + 1

/-- `kBitIntlSwapMasks` (`bit_utils.h:52-59`), `kSwapMasks` (`mpc/utils/circuits.h:167-174`). -/
def swapMasks : List (BitVec 128) :=
  [0x22222222222222222222222222222222#128,
   0x0C0C0C0C0C0C0C0C0C0C0C0C0C0C0C0C#128,
   0x00F000F000F000F000F000F000F000F0#128,
   0x0000FF000000FF000000FF000000FF00#128,
   0x00000000FFFF000000000000FFFF0000#128,
   0x0000000000000000FFFFFFFF00000000#128]

/-- `kBitIntlKeepMasks` (`bit_utils.h:61-68`), `kKeepMasks` (`mpc/utils/circuits.h:175-182`). -/
def keepMasks : List (BitVec 128) :=
  [0x99999999999999999999999999999999#128,
   0xC3C3C3C3C3C3C3C3C3C3C3C3C3C3C3C3#128,
   0xF00FF00FF00FF00FF00FF00FF00FF00F#128,
   0xFF0000FFFF0000FFFF0000FFFF0000FF#128,
   0xFFFF00000000FFFFFFFF00000000FFFF#128,
   0xFFFFFFFF0000000000000000FFFFFFFF#128]

/-- one level of both functions (`bit_utils.h:109-113`, `:155-159`); a level past the tables is an
out-of-range array access (`none`). -/
def swapStep {w : ℕ} (level : ℕ) (r : BitVec w) : Option (BitVec w) := do
  let K := (← keepMasks[level]?).setWidth w
  let M := (← swapMasks[level]?).setWidth w
  let S := 2 ^ level
  return (r &&& K) ^^^ ((r >>> S) &&& M) ^^^ ((r &&& M) <<< S)

/-- the levels of `BitDeintl`: `for (level = stride; level + 1 < Log2Ceil(nbits); level++)` -/
def deintlLevels (stride nbits : ℕ) : List ℕ :=
  (List.range (log2Ceil nbits - 1)).filter (fun l => stride ≤ l)

/-- the levels of `BitIntl`: `for (level = Log2Ceil(nbits) - 2; level >= stride; level--)` -/
def intlLevels (stride nbits : ℕ) : List ℕ := (deintlLevels stride nbits).reverse

/-- `BitDeintl` (`bit_utils.h:85-116`). -/
def bitDeintl {w : ℕ} (x : BitVec w) (stride nbits : ℕ) : Option (BitVec w) :=
  (deintlLevels stride nbits).foldlM (fun r l => swapStep l r) x

/-- `BitIntl` (`bit_utils.h:131-162`). -/
def bitIntl {w : ℕ} (x : BitVec w) (stride nbits : ℕ) : Option (BitVec w) :=
  (intlLevels stride nbits).foldlM (fun r l => swapStep l r) x

end Spu.Model.Bits

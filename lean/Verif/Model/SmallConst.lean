/-
Multiplication by a constant too small for the fixed point encoding.

`/repo/src/libspu/device/pphlo/pphlo_executor.cc:299-345` treats a product with a splat constant
below four times the least representable number separately: the constant is scaled up by a power of
two before it is encoded, and the product is shifted down by as many bits more.

The arithmetic in `double` (`1 / fValue`, `n / N`) is taken to be exact.  The truncation protocol is
a function `tr`; `none` stands for a shift the machine does not define.
-/
import Mathlib.Data.Rat.Floor
import Mathlib.Tactic.NormNum
import Mathlib.Tactic.Linarith

set_option autoImplicit false

namespace Spu.SmallConst

/-- The loop of `findTwoK`, `pphlo_executor.cc:150-158`, from a state with `N` and `count` to the value
returned.  `N` is a `uint64_t`: shifting it left past the top gives `0`. -/
inductive FindTwoK (r : ℚ) : ℕ → ℤ → ℤ → Prop
  | stop {N : ℕ} {c : ℤ} : ¬ (N : ℚ) < r → FindTwoK r N c (c - 1)
  | next {N : ℕ} {c k : ℤ} : (N : ℚ) < r → FindTwoK r (N * 2 % 2 ^ 64) (c + 1) k →
      FindTwoK r N c k

/-- A runtime value: the signed integer in the ring and whether its type is a fixed point one. -/
structure RtVal where
  fxp : Bool
  x : ℤ

/-- Encoding of a number in the safe range, `/repo/src/libspu/core/encoding.cc:96`: the cast to an
integer drops the fraction. -/
def encode (f : ℕ) (c : ℚ) : ℤ := if 0 ≤ c then ⌊c * 2 ^ f⌋ else ⌈c * 2 ^ f⌉

/-- What the executor does for a product of `v` with the splat constant `c`, with `f` fraction bits
in a ring of `K` bits. -/
inductive Exec (K f : ℕ) (tr : ℕ → ℤ → Option ℤ) (c : ℚ) (v : RtVal) : RtVal → Prop
  /-- `:308-340`.  `eps` is `2^-f`. -/
  | small {k : ℤ} {y : ℤ} : |c| < 4 * (1 / 2 ^ f) → 0 < |c| →
      FindTwoK (1 / |c|) 1 0 k →
      tr (f + k.toNat) (Int.bmod (v.x * encode f (2 ^ k.toNat / (1 / |c|))) (2 ^ K)) = some y →
      Exec K f tr c v ⟨v.fxp, y⟩
  /-- `:342-345` with `hal::mul` of two fixed point numbers. -/
  | fxp {y : ℤ} : ¬ (|c| < 4 * (1 / 2 ^ f) ∧ 0 < |c|) → v.fxp = true →
      tr f (Int.bmod (v.x * encode f c) (2 ^ K)) = some y → Exec K f tr c v ⟨true, y⟩
  /-- `:342-345` with `hal::mixed_mul`, `/repo/src/libspu/kernel/hal/polymorphic.cc:94-98`. -/
  | mixed : ¬ (|c| < 4 * (1 / 2 ^ f) ∧ 0 < |c|) → v.fxp = false →
      Exec K f tr c v ⟨true, Int.bmod (v.x * encode f c) (2 ^ K)⟩

end Spu.SmallConst

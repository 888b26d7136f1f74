import Verif.Model.Gfmp

set_option autoImplicit false

/-!
# Two-party exponentiation over a Mersenne prime (`mpc/semi2k/{prime_utils.cc, exp.cc}`)

Everything in these files works element by element, so one element is modelled; both parties are modelled
together.  Ring elements are `BitVec w` (`ring2k_t`), the prime is `2^q - 1` and `mul` is the double-word
multiplication of `gfmp.h` (`Model/Gfmp`).  A `Deal` holds what `beaver->MulPriv` gave to the two parties.

Not modelled: shapes and element types (`as`), the dealer's random generator, floating-point arithmetic.  The
only floating-point computation on data, `roundf(pow(2, frac) * 2^fxp)` of the fractional part `frac`, is the
parameter `F`; the constant `roundf(M_LOG2E * 2^kExpFxp)` is the field `scale` of `Cfg`.
Undefined shifts and failed checks are `none`.
-/

namespace Spu.Model.ExpPrime

open Spu.Model.Gfmp

variable {w : ℕ}

/-- `ProbConvRing2k` (`prime_utils.cc:25-58`), one element.  `shifted_bit`, `mask` and hence the whole
expression have type `uint128_t`; the assignment truncates to `ring2k_t`. -/
def probConv (q rank shr : ℕ) (x : BitVec w) : Option (BitVec w) :=
  if 1 < rank then none
  else if 128 ≤ shr then none
  else
    let bit : BitVec 128 := 1#128 <<< shr
    let mask := bit - 1#128
    let pm1 : BitVec 128 := (prime w q - 1#w).setWidth 128
    some (if rank = 0 then ((x.setWidth 128 &&& mask) % pm1).setWidth w
      else (((x.setWidth 128 &&& mask) + pm1 - bit) % pm1).setWidth w)

/-- what the dealer gives: `(a, c0)` to party 0, `(b, c1)` to party 1 (`prime_utils.cc:65-68`) -/
structure Deal (w : ℕ) where
  a : BitVec w
  b : BitVec w
  c0 : BitVec w
  c1 : BitVec w

/-- `BeaverTfpUnsafe::MulPriv` for `ElementType::kGfmp` with two parties (`beaver_tfp.cc:137-170`,
`adjustMulPriv` at `trusted_party.cc:127-140`): from the four pseudo-random elements; rank 0 adds the adjustment. -/
def dealMP (mul : BitVec w → BitVec w → BitVec w × BitVec w) (q : ℕ) (a b c0 c1 : BitVec w) : Deal w :=
  ⟨a, b, addMod q c0 (subMod q (mulMod mul q a b) (addMod q c0 c1)), c1⟩

/-- the same for `ElementType::kRing` -/
def dealRing (a b c0 c1 : BitVec w) : Deal w := ⟨a, b, c0 + (a * b - (c0 + c1)), c1⟩

/-- `MulPriv` (`prime_utils.cc:98-118`): party 0 holds `x`, party 1 holds `y` -/
def mulPriv (d : Deal w) (x y : BitVec w) : BitVec w × BitVec w :=
  let xa := d.a + x
  let yb := d.b + y
  (d.c0 + yb * x, d.c1 - xa * d.b)

/-- `MulPrivModMP` (`prime_utils.cc:120-141`) -/
def mulPrivMP (mul : BitVec w → BitVec w → BitVec w × BitVec w) (q : ℕ) (d : Deal w) (x y : BitVec w) :
    BitVec w × BitVec w :=
  let xa := addMod q d.a x
  let yb := addMod q d.b y
  (addMod q d.c0 (mulMod mul q yb x), subMod q d.c1 (mulMod mul q xa d.b))

/-- `WrapBitModMP` (`prime_utils.cc:149-176`).  The view `_b` points to the array object `b`, so after
`b = MulPriv(...)` it reads and writes the product. -/
def wrapBit (q : ℕ) (d : Deal w) (h0 h1 : BitVec w) : BitVec w × BitVec w :=
  let phalf := prime w q >>> 1
  let bit := fun (h : BitVec w) => if h < phalf then 1#w else 0#w
  let z := mulPriv d (bit h0) (bit h1)
  (1#w - z.1, - z.2)

/-- `ConvMP` (`prime_utils.cc:179-200`) -/
def convMP (q n : ℕ) (d : Deal w) (h0 h1 : BitVec w) : Option (BitVec w × BitVec w) :=
  if w ≤ n then none
  else
    let v := wrapBit q d h0 h1
    some ((h0 >>> n) - (prime w q >>> n) * v.1, (h1 >>> n) - (prime w q >>> n) * v.2)

/-- the constants of `ExpA::proc` -/
structure Cfg (w : ℕ) where
  /-- `ctx->sctx()->getFxpBits()` -/
  fxp : ℕ
  /-- `kExpFxp` (`exp.cc:42`) -/
  kExp : ℕ
  /-- `exp_conv_scale` (`exp.cc:50`) -/
  scale : BitVec w
  /-- `experimental_exp_prime_offset` -/
  offset : ℕ

/-- `exp.cc:53-63`: the share of the scaled exponent -/
def scaled (c : Cfg w) (rank : ℕ) (x : BitVec w) : BitVec w :=
  if rank = 0 then x * c.scale + (BitVec.ofNat w c.offset <<< (c.kExp + c.fxp)) else x * c.scale

/-- the local part of `ExpA::proc` (`exp.cc:30-87`) -/
def expLocal (mul : BitVec w → BitVec w → BitVec w × BitVec w) (q : ℕ) (c : Cfg w) (F : BitVec w → BitVec w)
    (rank : ℕ) (x : BitVec w) : Option (BitVec w) := do
  let t := c.kExp + c.fxp
  if 64 ≤ c.fxp then none
  if w ≤ t then none
  let xs := scaled c rank x
  let h ← probConv q rank (w - c.fxp) (xs.sshiftRight t)
  let y := expMod mul q 2#w h
  let frac := xs &&& ((1#w <<< t) - 1#w)
  some (mulMod mul q y (F frac))

/-- `ExpA::proc` (`exp.cc:30-93`) of both parties, with the two deals used by `MulPrivModMP` and by `ConvMP` -/
def expA (mul : BitVec w → BitVec w → BitVec w × BitVec w) (q : ℕ) (c : Cfg w) (F : BitVec w → BitVec w)
    (dp dr : Deal w) (x0 x1 : BitVec w) : Option (BitVec w × BitVec w) := do
  let z0 ← expLocal mul q c F 0 x0
  let z1 ← expLocal mul q c F 1 x1
  let m := mulPrivMP mul q dp z0 z1
  convMP q (c.offset + c.fxp) dr m.1 m.2

/-- the constants for FM128: `roundf(M_LOG2E * 2^24)` -/
def fm128 (fxp offset : ℕ) : Cfg (64 + 64) := ⟨fxp, 24, 24204406#(64 + 64), offset⟩

end Spu.Model.ExpPrime

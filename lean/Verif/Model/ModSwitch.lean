import Mathlib.Data.ZMod.Basic
import Mathlib.Algebra.BigOperators.Group.Finset.Basic
import Mathlib.Data.Nat.Log
import Mathlib.Data.Nat.Bitwise

set_option autoImplicit false

/-!
Model of the switch between `[0, Q)` in residue form and `[0, 2^k)`:
`libspu/mpc/cheetah/rlwe/modswitch_helper.cc`.

Machine words are natural numbers reduced explicitly modulo the width of the C++ type.  A throw (`SPU_ENFORCE`)
is `none`.  The SEAL routines called by the code are represented by what they are documented to compute:
`barrett_reduce_64/128`, `multiply_uint_mod`, `negate_uint_mod`, `multiply_poly_scalar_coeffmod` are arithmetic
modulo the modulus; `decompose` gives the residues; `right_shift_uint` divides by a power of two;
`fast_convert_array` is `Σ_l [x_l (Q/q_l)^{-1}]_{q_l} (Q/q_l)` modulo the target; `try_invert_uint_mod` gives the
inverse.  Arrays are treated coefficient by coefficient, which is how every loop of the file works; the layout of
the arrays is modelled in `Verif.Model.CheetahMul`.
-/

namespace Spu.Model.Ms

/-- What a `SEALContext` contributes: the `L` moduli `q`, and `gamma`; `k` is `base_mod_bitlen`. -/
structure Ctx where
  k : ℕ
  L : ℕ
  q : ℕ → ℕ
  g : ℕ

/-- `total_coeff_modulus`, `base_prod`: the product of the moduli. -/
def Ctx.Q (c : Ctx) : ℕ := ∏ l ∈ Finset.range c.L, c.q l

/-- `punctured_prod_array`: the product without modulus `l`. -/
def Ctx.pun (c : Ctx) (l : ℕ) : ℕ := ∏ j ∈ (Finset.range c.L).erase l, c.q j

/-- The `i`-th 64-bit limb. -/
def limb (x i : ℕ) : ℕ := x / 2 ^ (64 * i) % 2 ^ 64

/-- modswitch_helper.cc:30-34 `U64BitMask`. -/
def u64BitMask (bw : ℕ) : ℕ := if bw = 64 then 2 ^ 64 - 1 else 2 ^ bw - 1

/-- modswitch_helper.cc:36-38 `AssignU128`. -/
def assignU128 (lo hi : ℕ) : ℕ := (hi <<< 64) ||| lo

/-- modswitch_helper.cc:47-50: `m` rounds of the loop of `Inv2k` on words of `n` bits, from `(inv, p)`. -/
def inv2kLoop (n : ℕ) : ℕ → ℕ × ℕ → ℕ × ℕ
  | 0, s => s
  | m + 1, s => inv2kLoop n m (s.1 * s.2 % 2 ^ n, s.2 * s.2 % 2 ^ n)

/-- modswitch_helper.cc:41-52 `Inv2k` on words of `n` bits. -/
def inv2k (n x : ℕ) : Option ℕ := if x % 2 = 1 then some (inv2kLoop n (n - 1) (1 % 2 ^ n, x)).1 else none

/-- modswitch_helper.cc:73-88 `ModLimbsRing2k`; `size` is the number of limbs stored. -/
def modLimbs (x size bw : ℕ) : ℕ :=
  let n := (bw + 63) / 64
  let msb := bw - 64 * (n - 1)
  let lo := limb x 0
  let hi := if 1 < size then limb x 1 else 0
  if 1 < n then assignU128 lo (hi &&& u64BitMask msb) else assignU128 (lo &&& u64BitMask msb) 0

/-- The inverse modulo `m`, 0 when there is none. -/
def modInv (a m : ℕ) : ℕ := ((a : ZMod m)⁻¹).val

/-- The members of `Impl` set by `Init` (modswitch_helper.cc:284-300). -/
structure Helper where
  c : Ctx
  negInvQt : ℕ
  invGt : ℕ
  negInvQg : ℕ
  punT : ℕ → ℕ
  gt : ℕ → ℕ
  mask : ℕ
  tHalf : ℕ
  QmodT : ℕ
  QdivT : ℕ → ℕ

/-- modswitch_helper.cc:363, 370: `(-Inv2k(x)) & mask` in words of `n` bits. -/
def negInv (n mask x : ℕ) : Option ℕ := (inv2k n x).map fun i => ((2 ^ n - i) % 2 ^ n) &&& mask

/-- modswitch_helper.cc:396-410: `gamma * 2^k` modulo one of the moduli. -/
def gammaT (k g q : ℕ) : ℕ :=
  let t := (2 ^ (k / 2)) % q
  let t := t * (2 ^ (k - k / 2) % q) % q
  g % q * t % q

/-- modswitch_helper.cc:303-411 `Init`, and the checks of the constructor (56-62). -/
def init (c : Ctx) : Option Helper := do
  guard (c.k ≤ 128 ∧ 2 ≤ c.k)
  guard (∀ l ∈ List.range c.L, c.g ≠ c.q l)
  let mask := if c.k = 128 then 2 ^ 128 - 1 else 2 ^ c.k - 1
  let n := if c.k ≤ 64 then 64 else 128
  let Qw := if c.k ≤ 64 then limb c.Q 0 else assignU128 (limb c.Q 0) (if 1 < c.L then limb c.Q 1 else 0)
  let a ← negInv n mask Qw
  let b ← (inv2k n c.g).map (· &&& mask)
  guard (64 < c.k → ((2 ^ 128 - a) % 2 ^ 128 * Qw % 2 ^ 128) &&& mask = 1)
  guard (64 < c.k → (b * c.g % 2 ^ 128) &&& mask = 1)
  guard (Nat.Coprime (c.Q % c.g) c.g)
  some {
    c := c
    negInvQt := a
    invGt := b
    negInvQg := (c.g - modInv (c.Q % c.g) c.g) % c.g
    punT := fun l => modLimbs (c.pun l) c.L c.k
    gt := fun l => gammaT c.k c.g (c.q l)
    mask := mask
    tHalf := 2 ^ (c.k - 1)
    QmodT := modLimbs c.Q c.L c.k
    QdivT := fun l => (if c.k < Nat.size c.Q then c.Q >>> c.k else 0) % c.q l }

/-- `absl::bit_ceil`. -/
def bitCeil (k : ℕ) : ℕ := 2 ^ Nat.clog 2 k

/-- modswitch_helper.cc:107-115 and 134-159: one element of `ModulusUpAt`, for an element type of `w` bits. -/
def upAt (h : Helper) (w l x : ℕ) : Option ℕ := do
  guard (w = bitCeil h.c.k)
  guard (l < h.c.L)
  let q := h.c.q l
  let x64 := x % q
  let u := x64 * h.QdivT l % q
  if w < 128 then
    let v := (((h.QmodT * x + h.tHalf) % 2 ^ 128) >>> h.c.k) % 2 ^ w
    some ((u + v) % 2 ^ 64 % q)
  else
    let prod := h.QmodT * x % 2 ^ 256
    let sum := (prod + h.tHalf) % 2 ^ 256
    let rs := (sum >>> 64) >>> (h.c.k - 64)
    some ((u + assignU128 (limb rs 0) (limb rs 1)) % 2 ^ 128 % q)

/-- SEAL `negate_uint_mod`. -/
def negMod (u q : ℕ) : ℕ := if u = 0 then 0 else q - u

/-- modswitch_helper.cc:178-186: one element of `CenteralizeAt`. -/
def centreAt (h : Helper) (w l x : ℕ) : Option ℕ := do
  guard (w = bitCeil h.c.k)
  guard (l < h.c.L)
  let q := h.c.q l
  if h.tHalf < x then some (negMod ((((2 ^ 128 - x) % 2 ^ 128) &&& h.mask) % q) q) else some (x % q)

/-- modswitch_helper.cc:229-236: `[gamma t x (Q/q_l)^{-1}]_{q_l}`. -/
def digit (h : Helper) (src : ℕ → ℕ) (l : ℕ) : ℕ :=
  src l * h.gt l % h.c.q l * modInv (h.c.pun l) (h.c.q l) % h.c.q l

/-- modswitch_helper.cc:218-226: the value modulo gamma. -/
def onGamma (h : Helper) (src : ℕ → ℕ) : ℕ :=
  (∑ l ∈ Finset.range h.c.L, digit h src l * (h.c.pun l % h.c.g)) % h.c.g * h.negInvQg % h.c.g

/-- modswitch_helper.cc:238-252: the value modulo `2^k`, accumulated in words of `w` bits. -/
def onT (h : Helper) (w : ℕ) (src : ℕ → ℕ) : ℕ :=
  let acc := (List.range h.c.L).foldl (fun y l => (y + digit h src l % 2 ^ w * (h.punT l % 2 ^ w)) % 2 ^ w) 0
  (acc * h.negInvQt % 2 ^ 128 &&& h.mask) % 2 ^ w

/-- modswitch_helper.cc:190-279: one coefficient of `ModulusDownRNS`, `src l` being its residue modulo `q_l`.
The difference of lines 273 and 276 is computed in the wider of the two operand types. -/
def down (h : Helper) (w : ℕ) (src : ℕ → ℕ) : Option ℕ := do
  guard (w = bitCeil h.c.k)
  let a := onGamma h src
  let b := onT h w src
  let W := max w 64
  let d := if h.c.g >>> 1 < a then (b + h.c.g + (2 ^ W - a)) % 2 ^ W else (b + (2 ^ W - a)) % 2 ^ W
  some ((d * h.invGt % 2 ^ 128 &&& h.mask) % 2 ^ w)

end Spu.Model.Ms

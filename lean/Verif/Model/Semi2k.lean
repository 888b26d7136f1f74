import Verif.Model.Comm
import Mathlib.Data.Matrix.Mul
import Mathlib.Data.BitVec

set_option autoImplicit false

/-!
# semi2k arithmetic kernels (`mpc/semi2k/arithmetic.cc`)

`n` parties (`n ≥ 1`), ring `R` (in the code `Z/2^32`, `Z/2^64` or `Z/2^128`; every kernel
below uses only ring operations, so `R` is an arbitrary commutative ring; arrays are covered
by taking `R` to be a ring of functions `ι → R₀`, since the kernels are element-wise).

`x i` is the share held by party `i`.  Randomness (PRSS words, dealer output) is an explicit
argument.
-/

namespace Spu.Model.Semi2k

variable {n : ℕ} [NeZero n] {R : Type*} [CommRing R]

/-- What the two PRSS words of party `i` are: `r0 i` from its own seed, `r1 i` from the seed of
party `i+1` (`mpc/common/prg_state.h:74-78` "r1 = next_party.r0").  That the PRG state machine
delivers this is property C30. -/
def PrssOk (r0 r1 : Fin n → R) : Prop := ∀ i, r1 i = r0 (i + 1)

/-- `P2A::proc` (`arithmetic.cc:46-60`). -/
def p2a (r0 r1 : Fin n → R) (pub : R) : Fin n → R := fun i =>
  if i = 0 then (r0 i - r1 i) + pub else r0 i - r1 i

/-- `A2P::proc` (`arithmetic.cc:62-67`): the value party `i` obtains. -/
def a2p (x : Fin n → R) : Fin n → R := fun i => allReduce (· + ·) x i

/-- `A2V::proc` (`arithmetic.cc:69-100`): what party `i` holds afterwards.
`makeConstantArrayRef` (a dummy array filled with zeros) is modelled as `0`. -/
def a2v (x : Fin n → R) (rank : Fin n) : Fin n → R := fun i =>
  if i = rank then gatherSum (· + ·) 0 x else 0

/-- `V2A::proc` (`arithmetic.cc:102-118`); `inp i` is party `i`'s local array, only the
owner's is meaningful. -/
def v2a (r0 r1 : Fin n → R) (owner : Fin n) (inp : Fin n → R) : Fin n → R := fun i =>
  if i = owner then (r0 i - r1 i) + inp i else r0 i - r1 i

/-- `NegateA::proc` (`arithmetic.cc:120-123`). -/
def negateA (x : Fin n → R) : Fin n → R := fun i => -(x i)

/-- `AddAP::proc` (`arithmetic.cc:128-138`). -/
def addAP (x : Fin n → R) (p : R) : Fin n → R := fun i => if i = 0 then x i + p else x i

/-- `AddAA::proc` (`arithmetic.cc:140-146`). -/
def addAA (x y : Fin n → R) : Fin n → R := fun i => x i + y i

/-- `MulAP::proc` (`arithmetic.cc:151-155`). -/
def mulAP (x : Fin n → R) (p : R) : Fin n → R := fun i => x i * p

/-- `LShiftA::proc` (`arithmetic.cc:463-466`): `x << bits` is multiplication by `2^bits`. -/
def lshiftA (x : Fin n → R) (bits : ℕ) : Fin n → R := fun i => x i * 2 ^ bits

/-- The opened difference in `MulOpen`/`SquareA` (`arithmetic.cc:232-257`, `:303-309`):
a cache hit supplies the stored public value, otherwise `allReduce(x - a)` is run. -/
def openMasked {n : ℕ} {M : Type*} [Add M] [Sub M] (hit : Option M) (x a : Fin n → M) :
    Fin n → M := fun i =>
  match hit with
  | some v => v
  | none => allReduce (· + ·) (fun j => x j - a j) i

/-- `MulAA::proc` (`arithmetic.cc:264-282`) on top of `MulOpen` (`arithmetic.cc:167-262`).
`a b c` is the dealer's triple, `hx hy` the cache contents (if hit). -/
def mulAA (hx hy : Option R) (x y a b c : Fin n → R) : Fin n → R := fun i =>
  let xa := openMasked hx x a i
  let yb := openMasked hy y b i
  let z := (b i * xa + a i * yb) + c i
  if i = 0 then z + xa * yb else z

/-- `SquareA::proc` (`arithmetic.cc:284-324`). -/
def squareA (hx : Option R) (x a b : Fin n → R) : Fin n → R := fun i =>
  let xa := openMasked hx x a i
  let z := (a i * xa) * 2 + b i
  if i = 0 then z + xa * xa else z

/-- `MulA1B::proc` (`arithmetic.cc:332-369`).  `y i` is party `i`'s share of the bit, already
restricted to bit 0 (`ring_bitmask(y,0,1)`) and embedded as `0`/`1`; the arrays handed to
`MulOpen` are fresh, so the cache never hits. -/
def mulA1B (x : Fin n → R) (y : Fin n → Bool) (a b c : Fin n → R) : Fin n → R := fun i =>
  let yy : Fin n → R := fun j => if y j then 1 else 0
  let xx : Fin n → R := fun j => (1 - yy j * 2 ^ 1) * x j
  let xa := openMasked none xx a i
  let yb := openMasked none yy b i
  let z := (b i * xa + a i * yb) + c i
  let z := z - xx i * yy i
  let z := if i = 0 then z + xa * yb else z
  z + x i * yy i

/-- `MulVVS::proc` (`arithmetic.cc:386-438`), two parties.  `inp i` is party `i`'s private
operand, `(a i, c i)` the dealer's pair with `a 0 * a 1 = c 0 + c 1`.  Each party sends
`a + in` to `nextRank` and receives from `prevRank` (the other party). -/
def mulVVS (inp a c : Fin 2 → R) : Fin 2 → R := fun i =>
  let tmp := a (i - 1) + inp (i - 1)
  if i = 0 then tmp * inp i + c i else tmp * (-(a i)) + c i

/-- `MatMulAP::proc` (`arithmetic.cc:443-446`). -/
def matMulAP {m k l : Type*} [Fintype k]
    (x : Fin n → Matrix m k R) (p : Matrix k l R) : Fin n → Matrix m l R :=
  fun i => x i * p

/-- `MatMulAA::proc` (`arithmetic.cc:448-461`); `ring_mmul` is the matrix product
(that the blocked implementation computes it is property C35). -/
def matMulAA {m k l : Type*} [Fintype k]
    (hx : Option (Matrix m k R)) (hy : Option (Matrix k l R))
    (x a : Fin n → Matrix m k R) (y b : Fin n → Matrix k l R) (c : Fin n → Matrix m l R) :
    Fin n → Matrix m l R := fun i =>
  let xa := openMasked hx x a i
  let yb := openMasked hy y b i
  let z := (xa * b i + a i * yb) + c i
  if i = 0 then z + xa * yb else z

/-! ### Input/output (`mpc/semi2k/io.cc`) -/

/-- `ring_rand_additive_splits` (`mpc/utils/ring_ops.cc:584-598`): `n-1` random splits, the first
split starts as the value and every other split is subtracted from it; `rnd` are the random
words (`rnd 0` unused). -/
def additiveSplits (raw : R) (rnd : Fin n → R) : Fin n → R := fun i =>
  if i = 0 then (List.finRange n).foldl (fun acc j => if j = 0 then acc else acc - rnd j) raw
  else rnd i

/-- `Semi2kIo::fromShares` for arithmetic shares (`mpc/semi2k/io.cc:101-117`). -/
def fromSharesA (s : Fin n → R) : R := gatherSum (· + ·) 0 s

/-! ### Boolean kernels (`mpc/semi2k/boolean.cc`), on `w`-bit words -/

section Boolean

variable {w : ℕ}

/-- `P2B::proc` (`boolean.cc:113-128`). -/
def p2b (r0 r1 : Fin n → BitVec w) (pub : BitVec w) : Fin n → BitVec w := fun i =>
  if i = 0 then (r0 i ^^^ r1 i) ^^^ pub else r0 i ^^^ r1 i

/-- `B2P::proc` (`boolean.cc:106-111`). -/
def b2p (x : Fin n → BitVec w) : Fin n → BitVec w := fun i => allReduce (· ^^^ ·) x i

/-- `AndBP::proc` (`boolean.cc:130-147`). -/
def andBP (x : Fin n → BitVec w) (p : BitVec w) : Fin n → BitVec w := fun i => x i &&& p

/-- `XorBP::proc` (`boolean.cc:210-226`). -/
def xorBP (x : Fin n → BitVec w) (p : BitVec w) : Fin n → BitVec w := fun i =>
  if i = 0 then x i ^^^ p else x i

/-- `XorBB::proc` (`boolean.cc:228-237`). -/
def xorBB (x y : Fin n → BitVec w) : Fin n → BitVec w := fun i => x i ^^^ y i

/-- `getBacktype` (`boolean.cc:48-65`): smallest of 8/16/32/64/128 that holds `nbits`
(`none` = throws). -/
def backBits (nbits : ℕ) : Option ℕ :=
  if nbits ≤ 8 then some 8
  else if nbits ≤ 16 then some 16
  else if nbits ≤ 32 then some 32
  else if nbits ≤ 64 then some 64
  else if nbits ≤ 128 then some 128
  else none

/-- `AndBB::proc` (`boolean.cc:149-208`) on one element.  Shares are `w`-bit words; the AND runs
on `v`-bit words, `v` the back type for the smaller bit count (`_lhs[idx] ^ _a[idx]` narrows to
`V`, the `V` results are zero-extended into the `T` output).  `a b c` is the dealer's
AND triple of `v`-bit words. -/
def andBB {v : ℕ} (x y : Fin n → BitVec w) (a b c : Fin n → BitVec v) : Fin n → BitVec w :=
  fun i =>
  let mx := allReduce (· ^^^ ·) (fun j => (x j).setWidth v ^^^ a j) i
  let my := allReduce (· ^^^ ·) (fun j => (y j).setWidth v ^^^ b j) i
  let z : BitVec w := (c i).setWidth w
  let z := z ^^^ (mx &&& b i).setWidth w
  let z := z ^^^ (my &&& a i).setWidth w
  if i = 0 then z ^^^ (mx &&& my).setWidth w else z

/-- `LShiftB`, `RShiftB`, `ARShiftB` (`boolean.cc:239-269`): each party shifts its share. -/
def lshiftB (x : Fin n → BitVec w) (s : ℕ) : Fin n → BitVec w := fun i => x i <<< s
@[inherit_doc lshiftB] def rshiftB (x : Fin n → BitVec w) (s : ℕ) : Fin n → BitVec w :=
  fun i => x i >>> s
@[inherit_doc lshiftB] def arshiftB (x : Fin n → BitVec w) (s : ℕ) : Fin n → BitVec w :=
  fun i => (x i).sshiftRight s

end Boolean

end Spu.Model.Semi2k

import Mathlib.Data.BitVec

set_option autoImplicit false

/-!
# Mersenne-prime field arithmetic (`mpc/utils/gfmp.h`)

A word type `T` of `W` bits is `BitVec W`; `k` is `ScalarTypeToPrime<T>::exp`.  The array functions of
`mpc/utils/gfmp_ops.cc` apply these element by element.
-/

namespace Spu.Model.Gfmp

variable {W : ℕ}

/-- `ScalarTypeToPrime<T>::prime` (`core/type_util.h:285-290`) -/
def prime (W k : ℕ) : BitVec W := ((1 : BitVec W) <<< k) - 1

/-- `mul` for 32- and 64-bit words (`gfmp.h:37-53`): low and high word, through the type of twice the width -/
def mulNarrow (x y : BitVec W) : BitVec W × BitVec W :=
  let hi : BitVec (W + W) := x.setWidth (W + W) * y.setWidth (W + W)
  (hi.setWidth W, (hi >>> W).setWidth W)

/-- `mul` for 128-bit words (`gfmp.h:55-80`), with half width `h` (64) -/
def mulWide {h : ℕ} (x y : BitVec (h + h)) : BitVec (h + h) × BitVec (h + h) :=
  let xLo : BitVec h := x.setWidth h
  let xHi : BitVec h := (x >>> h).setWidth h
  let yLo : BitVec h := y.setWidth h
  let yHi : BitVec h := (y >>> h).setWidth h
  let lo : BitVec (h + h) := xLo.setWidth (h + h) * yLo.setWidth (h + h)
  let xlYh : BitVec (h + h) := xLo.setWidth (h + h) * yHi.setWidth (h + h)
  let xhYl : BitVec (h + h) := xHi.setWidth (h + h) * yLo.setWidth (h + h)
  let lo1 := lo + (xlYh <<< h)
  let hi : BitVec (h + h) := if lo1 < xlYh <<< h then 1 else 0
  let lo2 := lo1 + (xhYl <<< h)
  let hi := hi + (if lo2 < xhYl <<< h then 1 else 0)
  let hi := hi + xHi.setWidth (h + h) * yHi.setWidth (h + h)
  let hi := hi + (xlYh >>> h)
  let hi := hi + (xhYl >>> h)
  (lo2, hi)

/-- `mul_mod` (`gfmp.h:83-91`) -/
def mulMod (mul : BitVec W → BitVec W → BitVec W × BitVec W) (k : ℕ) (x y : BitVec W) : BitVec W :=
  let e := (mul x y).1
  let c := (mul x y).2
  let p := prime W k
  let ret := (e &&& p) + ((e >>> k) ^^^ (c <<< (W - k)))
  if ret ≥ p then ret - p else ret

/-- `add_mod` (`gfmp.h:93-98`) -/
def addMod (k : ℕ) (x y : BitVec W) : BitVec W :=
  let ret := x + y
  if ret ≥ prime W k then ret - prime W k else ret

/-- `add_inv` (`gfmp.h:100-104`) -/
def addInv (k : ℕ) (x : BitVec W) : BitVec W := x ^^^ prime W k

/-- `extend_gcd` (`gfmp.h:108-118`): the pair `(x, y)` -/
def extendGcd (mul : BitVec W → BitVec W → BitVec W × BitVec W) (k : ℕ) (a b : BitVec W) : BitVec W × BitVec W :=
  if _h : b.toNat = 0 then (1, 0)
  else
    let r := extendGcd mul k b (a % b)
    let y := r.1
    let x := r.2
    let tmp := mulMod mul k (a / b) x
    (x, addMod k y (addInv k tmp))
termination_by b.toNat
decreasing_by rw [BitVec.toNat_umod]; exact Nat.mod_lt _ (by omega)

/-- `mul_inv` (`gfmp.h:120-127`) -/
def mulInv (mul : BitVec W → BitVec W → BitVec W × BitVec W) (k : ℕ) (x : BitVec W) : BitVec W :=
  (extendGcd mul k (prime W k) x).2

/-- `mod_p` (`gfmp.h:129-135`) -/
def modP (k : ℕ) (x : BitVec W) : BitVec W :=
  let i := (x &&& prime W k) + (x >>> k)
  if i ≥ prime W k then i - prime W k else i

/-- the loop of `exp_mod` (`gfmp.h:156-168`) -/
def expLoop (mul : BitVec W → BitVec W → BitVec W × BitVec W) (k : ℕ) (power inter e : BitVec W) : BitVec W :=
  let inter' := if e &&& 1 ≠ 0 then mulMod mul k power inter else inter
  if _h : (e >>> 1).toNat = 0 then inter' else expLoop mul k (mulMod mul k power power) inter' (e >>> 1)
termination_by e.toNat
decreasing_by
  rw [BitVec.toNat_ushiftRight, Nat.shiftRight_eq_div_pow] at *
  omega

/-- `exp_mod` (`gfmp.h:139-170`) -/
def expMod (mul : BitVec W → BitVec W → BitVec W × BitVec W) (k : ℕ) (x e : BitVec W) : BitVec W :=
  if e = 0 then 1 else if e = 1 then x else expLoop mul k x 1 e

/-- `gfmp_sub_mod` (`gfmp_ops.cc:93-109`) -/
def subMod (k : ℕ) (x y : BitVec W) : BitVec W := addMod k x (addInv k y)

/-- `gfmp_div_mod` (`gfmp_ops.cc:111-127`) -/
def divMod (mul : BitVec W → BitVec W → BitVec W × BitVec W) (k : ℕ) (x y : BitVec W) : BitVec W :=
  mulMod mul k x (mulInv mul k y)

end Spu.Model.Gfmp

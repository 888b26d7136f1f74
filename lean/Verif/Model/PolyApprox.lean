import Verif.Model.ExpApprox
import Mathlib.Data.Nat.Log

set_option autoImplicit false

/-!
# Polynomials, logarithm and square roots of secret fixed-point numbers (`fxp_base.cc`, `fxp_approx.cc` in `kernel/hal`)

As in `Model/ExpApprox.lean`: words of the ring with `f` fraction bits, element by element; `T b` is `_trunc` by `b` bits.
-/

namespace Spu.Model.PolyApprox
open Spu.Model Spu.Model.HalRing Spu.Model.FxpDiv Spu.Model.ExpApprox

variable {w : ℕ}

/-- the float `m / 2^s` with `f` fraction bits, rounded towards zero -/
def encZ (w f : ℕ) (m : ℤ) (s : ℕ) : BitVec w := BitVec.ofInt w ((m * 2 ^ f).tdiv (2 ^ s))

/-- one round of the loop that computes powers (`fxp_base.cc:49-58`) -/
def powStep (T : ℕ → BitVec w → BitVec w) (f degree : ℕ) (pre : List (BitVec w)) : List (BitVec w) :=
  let size := min pre.length (degree - pre.length)
  pre ++ (pre.take size).map fun a => fmul (T f) a (pre.getLastD 0)

/-- `x, x^2, …, x^degree` (`fxp_base.cc:47-58`); `Log2Ceil` is `Nat.clog 2` -/
def powers (T : ℕ → BitVec w → BitVec w) (f degree : ℕ) (x : BitVec w) : List (BitVec w) :=
  (powStep T f degree)^[Nat.clog 2 degree] [x]

/-- `polynomial` (`fxp_base.cc:30-68`) -/
def polynomial (T : ℕ → BitVec w → BitVec w) (f : ℕ) (x : BitVec w) : List (BitVec w) → Option (BitVec w)
  | [] => none
  | [c] => some c
  | c :: cs =>
    let pre := powers T f cs.length x
    some (T f ((List.range cs.length).foldl (fun res i => res + pre.getD i 0 * cs.getD i 0) (kOne w f * c)))

/-- `kLogCoefficient` (`fxp_approx.cc:33-35`) -/
def logCoeffs : List (ℤ × ℕ) := [(0, 0), (4194289, 22), (-131039, 18), (695833, 21), (-4038843, 24), (5625537, 25), (-6397447, 26),
  (9687431, 28), (-13858881, 31)]

/-- `log_minmax_normalized` (`fxp_approx.cc:32-43`) -/
def logNorm (T : ℕ → BitVec w → BitVec w) (f : ℕ) (x : BitVec w) : Option (BitVec w) :=
  polynomial T f (sub x (kOne w f)) (logCoeffs.map fun c => encZ w f c.1 c.2)

/-- `log_minmax` (`fxp_approx.cc:48-80`); `std::log(2)` is the double `6243314768165359 / 2^53` -/
def logMinmax (T : ℕ → BitVec w → BitVec w) (f : ℕ) (x : BitVec w) : Option (BitVec w) := do
  let pre := prefixOr x
  let k ← popcount pre (2 * f + 2)
  let msb := pre ^^^ (pre >>> 1)
  let factor ← Semi2kConv.bitrev msb 0 (2 * f + 1)
  let factor := maskNumberOfBits factor (2 * f + 1)
  let norm := fmul (T f) x factor
  let ln ← logNorm T f norm
  let log2e := (sub k (BitVec.ofNat w (f + 1))) <<< f
  let loge := fmul (T f) log2e (encZ w f 6243314768165359 53)
  return ln + loge

/-- `f_log1p` (`fxp_approx.cc:526-532`) in the default mode -/
def log1p (T : ℕ → BitVec w → BitVec w) (f : ℕ) (x : BitVec w) : Option (BitVec w) := logMinmax T f (kOne w f + x)

/-- the polynomials of `rsqrt_init_guess` (`fxp_approx.cc:577-591`): coefficients and constant -/
def rsqrtCoeffs (lower : Bool) : List (ℤ × ℕ) × (ℤ × ℕ) :=
  if lower then ([(0, 0), (-1557581, 18), (5030963, 20)], (13360955, 22))
  else ([(0, 0), (-8115949, 19), (2521267, 16), (-1634011, 15), (6823457, 18)], (4344093, 20))

/-- `rsqrt_init_guess` (`fxp_approx.cc:565-594`) -/
def rsqrtGuess (T : ℕ → BitVec w → BitVec w) (f : ℕ) (lower : Bool) (x z : BitVec w) : Option (BitVec w) := do
  let zrev ← Semi2kConv.bitrev z 0 (2 * f)
  let zrev := maskNumberOfBits zrev (2 * f)
  let u := T f (x * zrev)
  let r ← polynomial T f u ((rsqrtCoeffs lower).1.map fun c => encZ w f c.1 c.2)
  return r + encZ w f (rsqrtCoeffs lower).2.1 (rsqrtCoeffs lower).2.2

/-- `(1 << n) * std::sqrt(2)` as an integer; the double is `6369051672525773 / 2^52` -/
def sqrt2Shl (n : ℕ) : ℕ := 2 ^ n * 6369051672525773 / 2 ^ 52

/-- `rsqrt_comp` (`fxp_approx.cc:596-645`) -/
def rsqrtComp (f : ℕ) (z : BitVec w) : Option (BitVec w) := do
  let zsep ← bitdeintl z
  let lo := BitVec.ofNat w (2 ^ (w / 2) - 1)
  let zeven := zsep &&& lo
  let zodd := (zsep >>> (w / 2)) &&& lo
  let a := zodd ^^^ zeven
  let b ← bitParity zeven (w / 2)
  let arev ← Semi2kConv.bitrev a 0 (f / 2 * 2)
  let arev := maskNumberOfBits arev (f / 2 * 2)
  let c0 := if f % 2 = 1 then 2 ^ ((f + 3) / 2) else sqrt2Shl (f / 2)
  let c1 := if f % 2 = 1 then sqrt2Shl (f / 2 + 1) else 2 ^ (f / 2)
  return mux b (BitVec.ofNat w c0) (BitVec.ofNat w c1) * arev

/-- `f_rsqrt` (`fxp_approx.cc:647-680`) without the fork of the context -/
def rsqrt (T : ℕ → BitVec w → BitVec w) (f : ℕ) (lower : Bool) (x : BitVec w) : Option (BitVec w) := do
  let z := highestOneBit x <<< 1
  let r ← rsqrtGuess T f lower x z
  let comp ← rsqrtComp f z
  return T f (r * comp)

/-- `f_sqrt` (`fxp_approx.cc:689-709`): one iteration -/
def sqrt (T : ℕ → BitVec w → BitVec w) (f : ℕ) (lower : Bool) (x : BitVec w) : Option (BitVec w) := do
  let y0 ← rsqrt T f lower x
  let g := fmul (T f) x y0
  let h := fmul (T f) y0 (encZ w f 1 1)
  let r := sub (encZ w f 3 1) (fmul (T f) g h)
  return fmul (T f) g r

end Spu.Model.PolyApprox

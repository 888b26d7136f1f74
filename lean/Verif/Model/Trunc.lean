import Verif.Model.Semi2k

set_option autoImplicit false

/-!
# semi2k truncation kernels (`mpc/semi2k/arithmetic.cc:468-714`)

Ring elements are `BitVec w` (`w` = 32, 64 or 128 in the code, arbitrary here); arrays are
single elements because all loops are element-wise.
-/

namespace Spu.Model.Semi2k

variable {n : ℕ} [NeZero n] {w : ℕ}

/-- `RandA::proc` (`arithmetic.cc:31-44`): each party shifts its private random word right
(logically) by two. -/
def randA (priv : Fin n → BitVec w) : Fin n → BitVec w := fun i => priv i >>> 2

/-- `TruncA::proc`, branch `getWorldSize() == 2` (`arithmetic.cc:476-489`). -/
def truncA2 (x : Fin 2 → BitVec w) (bits : ℕ) : Fin 2 → BitVec w := fun i =>
  if i = 0 then (x i).sshiftRight bits else -((-(x i)).sshiftRight bits)

/-- `TruncA::proc`, branch for other world sizes (`arithmetic.cc:490-511`); `r`, `rb` are the
dealer's truncation pair. -/
def truncAN (x r rb : Fin n → BitVec w) (bits : ℕ) : Fin n → BitVec w := fun i =>
  let x_r := allReduce (· + ·) (fun j => x j - r j) i
  if i = 0 then rb i + x_r.sshiftRight bits else rb i

/-- `TruncAPr::proc` (`arithmetic.cc:514-580`); `r`, `rc`, `rb` are the dealer's triple. -/
def truncAPr (x r rc rb : Fin n → BitVec w) (bits : ℕ) : Fin n → BitVec w := fun i =>
  let xPlusR : Fin n → BitVec w := fun j =>
    (if j = 0 then x j + ((1 : BitVec w) <<< (w - 2)) else x j) + r j
  let c := allReduce (· + ·) xPlusR i
  let ck1 := c >>> (w - 1)
  if i = 0 then
    let b := rb i + ck1 - 2 * ck1 * rb i
    let cHat := (c <<< 1) >>> (1 + bits)
    let y := cHat - rc i + (b <<< (w - 1 - bits))
    y - ((1 : BitVec w) <<< (w - 2 - bits))
  else
    let b := rb i + 0 - 2 * ck1 * rb i
    0 - rc i + (b <<< (w - 1 - bits))

/-- a C++ comparison result cast to a word -/
def b2w {v : ℕ} (b : Bool) : BitVec v := if b then 1 else 0

/-- `computeMW` (`arithmetic.cc:607-665`); `v` is the width of `trunc_field`, `a`, `c` the
dealer's private-multiplication correlation used by `mul_vv`.  `kBitsLeftOut = 2`
(`arithmetic.h:298`). -/
def computeMW {v : ℕ} (x : Fin 2 → BitVec w) (a c : Fin 2 → BitVec v) : Fin 2 → BitVec v :=
  let L4 : BitVec w := (1 : BitVec w) <<< (w - 2)
  let L2 : BitVec w := L4 <<< 1
  let star : Fin 2 → BitVec v := fun i =>
    if i = 0 then b2w (decide ((x i - L4) ≥ L2)) else b2w (decide (x i ≥ L2))
  let mw := mulVVS star a c
  fun i => if i = 0 then mw i + (1 - b2w (decide (x i < L4))) else mw i

/-- `TruncAPr2::proc` (`arithmetic.cc:670-714`). -/
def truncAPr2 {v : ℕ} (x : Fin 2 → BitVec w) (a c : Fin 2 → BitVec v) (bits : ℕ) :
    Fin 2 → BitVec w := fun i =>
  (x i >>> bits) - (computeMW x a c i).setWidth w * ((1 : BitVec w) <<< (w - bits)) + BitVec.ofNat w i.val

/-- `getTruncField` (`arithmetic.cc:594-605`): width of the ring in which the wrap count is
shared. -/
def truncFieldWidth (bits : ℕ) : Option ℕ :=
  if bits ≤ 32 then some 32 else if bits ≤ 64 then some 64
  else if bits ≤ 128 then some 128 else none

end Spu.Model.Semi2k

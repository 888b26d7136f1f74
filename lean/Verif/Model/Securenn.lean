import Mathlib.Data.BitVec
import Mathlib.Data.Fin.Basic

set_option autoImplicit false

/-!
Model of SecureNN's most significant bit: `libspu/mpc/securenn/arithmetic.cc` (`ShareConvert`, `Msb`) and
`conversion.cc` (`Msb_a2b` before its last step).

Ranks 0 and 1 hold additive shares, rank 2 helps.  All loops go over the elements, so an element is modelled; what two
iterations of a loop share is modelled separately (`raceRun`).  Words are `BitVec k`.  Expressions of mixed type are
evaluated in the widest type that occurs, `max k 64` bits (`size_t`).  What two parties draw from a common generator is
one parameter (C30); what is drawn by one party is a parameter as well.
-/

namespace Spu.Model.Snn

/-- arithmetic.cc:563, 866: `p`. -/
def pr : ℕ := 131

variable {k : ℕ}

/-- `z = x + y; if (z < x) z += 1`. -/
def addM1 (x y : BitVec k) : BitVec k := if x + y < x then x + y + 1 else x + y

/-- `z = x - y; if (x < y) z -= 1`. -/
def subM1 (x y : BitVec k) : BitVec k := if x < y then x - y - 1 else x - y

/-- `c ? 1 : 0`. -/
def ind (b : Bool) : BitVec k := if b then 1 else 0

/-- arithmetic.cc:547-554 `bitDecompose`: bit `i`. -/
def bitAt (x : BitVec k) (i : ℕ) : ℕ := x.toNat / 2 ^ i % 2

/-- `z % p`, where `z` is evaluated in an unsigned type of `max k 64` bits. -/
def red (k : ℕ) (z : ℤ) : ℕ := (z % 2 ^ max k 64).toNat % pr

/-- arithmetic.cc:683-685, 691-693: `w`. -/
def pcW (k rank b dp : ℕ) : ℕ := red k (pr + dp + rank * b - 2 * b * dp)

/-- arithmetic.cc:686-688 and 694-696: `_c` before it is scaled; `flag` is `_eta__ == 1`. -/
def pcC (k rank : ℕ) (flag : Bool) (b dp wt : ℕ) : ℕ :=
  if flag then red k (pr - rank * b + dp + rank + wt) else red k (pr + rank * b - dp + rank + wt)

/-- arithmetic.cc:680, 689, 697: `w_total` after `m` iterations, which go from bit `k - 1` downwards. -/
def pcTotal (rank : ℕ) (b : BitVec k) (dp : ℕ → BitVec k) : ℕ → ℕ
  | 0 => 0
  | m + 1 => (pcTotal rank b dp m + pcW k rank (bitAt b (k - 1 - m)) (dp (k - 1 - m)).toNat) % pr

/-- arithmetic.cc:698-710: `_c` in the last branch; `u` is `_u[idx * k + i]` when it is read. -/
def pcLast (rank : Fin 2) (u : BitVec k) (i : ℕ) : BitVec k :=
  if i ≠ 1 then (if rank = 0 then u + 1 else -u) else if rank = 0 then u else -u

/-- arithmetic.cc:711-712: scaling with a number in `[1, p - 1]`. -/
def pcScale (s c : BitVec k) : BitVec k := BitVec.ofNat k (((BitVec.ofNat k (s.toNat % (pr - 1)) + 1) * c).toNat % pr)

/-- arithmetic.cc:676-714, 1092-1130: what a party sends for bit `i` in the private comparison. -/
def pcMsg (rank : Fin 2) (flag : Bool) (r t : BitVec k) (dp s u : ℕ → BitVec k) (i : ℕ) : BitVec k :=
  pcScale (s i) <|
    if flag = false then BitVec.ofNat k (pcC k rank flag (bitAt r i) (dp i).toNat (pcTotal rank r dp (k - 1 - i)))
    else if r ≠ BitVec.allOnes k then
      BitVec.ofNat k (pcC k rank flag (bitAt t i) (dp i).toNat (pcTotal rank t dp (k - 1 - i)))
    else pcLast rank (u i) i

/-- arithmetic.cc:834-841, 969-976: what rank 2 finds. -/
def pcOut (d0 d1 : ℕ → BitVec k) : Bool := (List.range k).any fun i => (d0 i + d1 i).toNat % pr = 0

/-- arithmetic.cc:798-802, 937-941: the shares of the bits of `x`. -/
def dpShare (x : BitVec k) (rnd : ℕ → BitVec k) (rank : Fin 2) (i : ℕ) : BitVec k :=
  if rank = 0 then rnd i else BitVec.ofNat k (bitAt x i) + BitVec.ofNat k pr - rnd i

/-- The private comparison; `r`, `t` as each of the two parties has them. -/
def privCompare (flag : Bool) (r t : Fin 2 → BitVec k) (x : BitVec k) (rnd s u : ℕ → BitVec k) : Bool :=
  pcOut (pcMsg 0 flag (r 0) (t 0) (dpShare x rnd 0) s u) (pcMsg 1 flag (r 1) (t 1) (dpShare x rnd 1) s u)

/-- The random values of `ShareConvert`. -/
structure ScRand (k : ℕ) where
  zero : BitVec k
  eta : BitVec k
  r : Fin 2 → BitVec k
  s : ℕ → BitVec k
  u : ℕ → BitVec k
  bits : ℕ → BitVec k
  d0 : BitVec k
  e0 : BitVec k

/-- Shares of `v` modulo `2^k - 1` (arithmetic.cc:805-807, 844-845, 931-932). -/
def splitM1 (v v0 : BitVec k) (rank : Fin 2) : BitVec k := if rank = 0 then v0 else subM1 v v0

/-- arithmetic.cc:556-857 `ShareConvert`: from shares modulo `2^k` to shares modulo `2^k - 1`. -/
def shareConvert (R : ScRand k) (a : Fin 2 → BitVec k) : Fin 2 → BitVec k :=
  let r := R.r 0 + R.r 1
  let a' := fun j => a j + R.r j
  let beta : Fin 2 → BitVec k := fun j => ind (a' j < a j)
  let alpha : Fin 2 → BitVec k := fun j => ind (r < R.r j)
  -- rank 2
  let x := a' 0 + a' 1
  let delta : BitVec k := ind (x < a' 0)
  let flag := R.eta.getLsbD 0
  let eta' : BitVec k := ind (privCompare flag (fun _ => r - 1) (fun _ => r) x R.bits R.s R.u)
  let d := splitM1 delta R.d0
  let e := splitM1 eta' R.e0
  -- ranks 0 and 1
  let one : Fin 2 → BitVec k := fun j => if j = 0 then 1 else 0
  let eta : Fin 2 → BitVec k := fun j => if flag = false then e j else if e j = 0 then one j else BitVec.allOnes k - e j + one j
  let th : Fin 2 → BitVec k := fun j => let th := d j + eta j + beta j; if th < d j then th + 1 else th
  let th' : Fin 2 → BitVec k := fun j => let th' := th j + one j * (-alpha j - 1); if th' > th j then th' - 1 else th'
  fun j => let res := subM1 (a j) (th' j); if j = 0 then addM1 R.zero res else subM1 res R.zero

/-- The random values of `Msb`. -/
structure MsbRand (k : ℕ) where
  x : BitVec k
  x0 : BitVec k
  bits : ℕ → BitVec k
  lsb0 : BitVec k
  beta : BitVec k
  s : ℕ → BitVec k
  u : ℕ → BitVec k
  beta0 : BitVec k
  a : Fin 2 → BitVec k
  b : Fin 2 → BitVec k
  c0 : BitVec k
  zero : BitVec k

/-- Shares of `v` modulo `2^k` (`ring_rand_additive_splits` for two parties). -/
def split2 (v v0 : BitVec k) (rank : Fin 2) : BitVec k := if rank = 0 then v0 else v - v0

/-- arithmetic.cc:1150-1170 (`Msb`): the product with the triple of rank 2 (892-901), without the share of zero. -/
def beaver2 (a b : Fin 2 → BitVec k) (c0 : BitVec k) (x y : Fin 2 → BitVec k) : Fin 2 → BitVec k :=
  let c := split2 ((a 0 + a 1) * (b 0 + b 1)) c0
  let xa := (x 0 - a 0) + (x 1 - a 1)
  let yb := (y 0 - b 0) + (y 1 - b 1)
  fun j => let z := xa * b j + yb * a j + c j; if j = 0 then z + xa * yb else z

/-- arithmetic.cc:859-1190 `Msb`: from shares modulo `2^k - 1` to shares modulo `2^k` of the most significant bit. -/
def msb (R : MsbRand k) (a : Fin 2 → BitVec k) : Fin 2 → BitVec k :=
  let xs := splitM1 R.x R.x0
  let lx := split2 (BitVec.ofNat k (bitAt R.x 0)) R.lsb0
  let r1 : Fin 2 → BitVec k := fun j => addM1 (addM1 (a j) (a j)) (xs j)
  let r : Fin 2 → BitVec k := fun j => addM1 (r1 j) (r1 (1 - j))
  let flag := R.beta.getLsbD 0
  let beta : BitVec k := ind flag
  let lr : Fin 2 → BitVec k := fun j => BitVec.ofNat k (bitAt (r j) 0)
  let b' : BitVec k := ind (privCompare flag r (fun j => r j + 1) R.x R.bits R.s R.u)
  let bs := split2 b' R.beta0
  let gamma : Fin 2 → BitVec k := fun j => bs j - beta * bs j - beta * bs j + if j = 1 then beta else 0
  let delta : Fin 2 → BitVec k := fun j => lx j - lx j * lr j - lx j * lr j + if j = 1 then lr j else 0
  let theta := beaver2 R.a R.b R.c0 gamma delta
  fun j => let res := gamma j + delta j - theta j - theta j; if j = 0 then res - R.zero else res + R.zero

/-- conversion.cc:188-200 `Msb_a2b` without the final `A2B`. -/
def msbA2B (S : ScRand k) (R : MsbRand k) (a : Fin 2 → BitVec k) : Fin 2 → BitVec k :=
  msb R (shareConvert S fun j => a j + a j)

/-! ## The loop over the elements

`w` and `w_total` are declared outside of the function that `pforeach` calls for each element (arithmetic.cc:673-674,
1089-1090), so threads share them.  Here an iteration of the inner loop is taken to be indivisible. -/

/-- The shared variable, the position of each of two iterations (bits done), and the values `_c` before they are scaled. -/
structure RaceSt where
  wTotal : ℕ
  pos : Fin 2 → ℕ
  c : Fin 2 → ℕ → ℕ

/-- The iteration for element `e` makes its next step: first `w_total = 0`, then one bit after the other. -/
def raceStep (k rank : ℕ) (b : Fin 2 → BitVec k) (dp : Fin 2 → ℕ → BitVec k) (st : RaceSt) (e : Fin 2) : RaceSt :=
  let n := st.pos e
  let st := { st with pos := Function.update st.pos e (n + 1) }
  if n = 0 then { st with wTotal := 0 }
  else if k < n then st
  else
    let i := k - n
    { st with
      c := Function.update st.c e (Function.update (st.c e) i (pcC k rank false (bitAt (b e) i) (dp e i).toNat st.wTotal))
      wTotal := (st.wTotal + pcW k rank (bitAt (b e) i) (dp e i).toNat) % pr }

/-- Two iterations in the order of `sched`. -/
def raceRun (k rank : ℕ) (b : Fin 2 → BitVec k) (dp : Fin 2 → ℕ → BitVec k) (sched : List (Fin 2)) : RaceSt :=
  sched.foldl (raceStep k rank b dp) ⟨0, fun _ => 0, fun _ _ => 0⟩

end Spu.Model.Snn

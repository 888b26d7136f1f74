import Verif.Model.Semi2kConv
import Verif.Model.Trunc
import Mathlib.Data.Matrix.Mul

set_option autoImplicit false

/-!
# The SecureNN kernels

(`mpc/securenn/arithmetic.cc`, `boolean.cc`, `conversion.cc`, `io.cc`)

Three parties.  Ranks 0 and 1 hold additive shares; rank 2 is meant to hold zero.  Boolean shares are held by all three.
The state is the two counters of each party's `PrgState` and the common number of private draws.  Counters count draws:
parties that draw together draw arrays of the same size.  One element is modelled, except for `matMulAA` and `maskPlace`.

`boolean.cc` and `A2B`, `B2A` in `conversion.cc` are the code of semi2k (`Model/Semi2kConv.lean`) with other sources of
randomness; that is how they are modelled (`snnEnv`).
-/

namespace Spu.Model.SnnK
open Spu.Model.Circ Spu.Model.Semi2kConv Spu.Model.Semi2k

/-- `r0_counter_`, `r1_counter_` (`mpc/common/prg_state.h`), and the counter of `genPriv` -/
structure Sys where
  own : Fin 3 → ℕ
  next : Fin 3 → ℕ
  priv : ℕ

/-- What the generators give: the word number `c` of the stream of party `i`, and private words. -/
structure Gen where
  prss : (v : ℕ) → Fin 3 → ℕ → BitVec v
  priv : (v : ℕ) → Fin 3 → ℕ → BitVec v

/-- `GenPrssCtrl`, or no call -/
inductive Ctrl
  | skip | first | second | both
  deriving DecidableEq

/-- whether the own stream is drawn from -/
def Ctrl.fst : Ctrl → Bool
  | .first | .both => true
  | _ => false

/-- whether the next party's stream is drawn from -/
def Ctrl.snd : Ctrl → Bool
  | .second | .both => true
  | _ => false

/-- `genPrssPair` (`prg_state.cc:81-93`, `prg_state.h:80-101`), called by party `i` with `d i`. -/
def draw (g : Gen) (v : ℕ) (d : Fin 3 → Ctrl) : M Sys ((Fin 3 → BitVec v) × (Fin 3 → BitVec v)) := fun s =>
  some ((fun i => if (d i).fst then g.prss v i (s.own i) else 0,
         fun i => if (d i).snd then g.prss v (i + 1) (s.next i) else 0),
    { s with own := fun i => if (d i).fst then s.own i + 1 else s.own i
             next := fun i => if (d i).snd then s.next i + 1 else s.next i })

/-- `genPriv` (`prg_state.cc:95-102`) -/
def genPriv (g : Gen) (v : ℕ) : M Sys (Fin 3 → BitVec v) := fun s =>
  some (fun i => g.priv v i s.priv, { s with priv := s.priv + 1 })

/-- the draws for a triple: what each party calls for `a` and `b` (`arithmetic.cc:307-342`, `boolean.cc:161-199`) -/
def ctrlAB : Fin 3 → Ctrl := ![.first, .second, .both]
/-- and for `c` -/
def ctrlC : Fin 3 → Ctrl := ![.first, .skip, .second]

variable {w : ℕ}

/-! ## Input and output -/

/-- `V2A` (`arithmetic.cc:65-99`) -/
def v2a (g : Gen) (owner : Fin 3) (x : BitVec w) : M Sys (Fin 3 → BitVec w) := do
  let (r0, r1) ← draw g w fun _ => .both
  if owner = 2 then
    let y := fun j => r0 j - r1 j
    return ![y 0 + (y 2 + x), y 1, 0]
  else
    let res : Fin 3 → BitVec w := ![r1 0, -(r0 1), 0]
    return fun j => if j = owner then res j + x else res j

/-- `A2V` (`arithmetic.cc:32-63`) at the owner -/
def a2v (x : Fin 3 → BitVec w) : BitVec w := gatherSum (· + ·) 0 x

/-- `P2A` (`arithmetic.cc:116-128`) -/
def p2a (g : Gen) (x : BitVec w) : M Sys (Fin 3 → BitVec w) := do
  let (r0, r1) ← draw g w fun _ => .both
  return ![r1 0, x - r0 1, 0]

/-- `A2P` (`arithmetic.cc:130-135`) -/
def a2p (x : Fin 3 → BitVec w) : Fin 3 → BitVec w := fun i => allReduce (· + ·) x i

/-- `RandA` (`arithmetic.cc:101-114`) -/
def randA (g : Gen) : M Sys (Fin 3 → BitVec w) := do
  let r ← genPriv g w
  return fun i => r i >>> 2

/-- `SecurennIo::toShares` for a secret (`io.cc:57-67`); `r` is what `ring_rand_additive_splits` draws -/
def toShares (x r : BitVec w) : Fin 3 → BitVec w := ![r, x - r, r - r]

/-! ## Arithmetic -/

/-- `NegateA`, `AddAA`, `AddAP`, `MulAP`, `LShiftA` (`arithmetic.cc:137-183`) -/
def negA (x : Fin 3 → BitVec w) : Fin 3 → BitVec w := fun i => -(x i)
@[inherit_doc negA] def addAA (x y : Fin 3 → BitVec w) : Fin 3 → BitVec w := fun i => x i + y i
@[inherit_doc negA] def addAP (x : Fin 3 → BitVec w) (p : BitVec w) : Fin 3 → BitVec w :=
  fun i => if i = 0 then x i + p else x i
@[inherit_doc negA] def mulAP (x : Fin 3 → BitVec w) (p : BitVec w) : Fin 3 → BitVec w := fun i => x i * p
@[inherit_doc negA] def lshiftA (x : Fin 3 → BitVec w) (k : ℕ) : Fin 3 → BitVec w := fun i => x i <<< k

/-- `MulAA` (`arithmetic.cc:292-379`) -/
def mulAA (g : Gen) (x y : Fin 3 → BitVec w) : M Sys (Fin 3 → BitVec w) := do
  let (a0, a1) ← draw g w ctrlAB
  let (b0, b1) ← draw g w ctrlAB
  let (c0, c1) ← draw g w ctrlC
  -- rank 2
  let cMsg := (a1 2 + a0 2) * (b1 2 + b0 2) - c1 2
  -- ranks 0 and 1
  let a := ![a0 0, a1 1]
  let b := ![b0 0, b1 1]
  let c := ![c0 0, cMsg]
  let xa := ![x 0 - a 0, x 1 - a 1]
  let yb := ![y 0 - b 0, y 1 - b 1]
  let z0 := (xa 0 + xa 1) * b 0 + (yb 0 + yb 1) * a 0 + c 0 + (xa 0 + xa 1) * (yb 0 + yb 1)
  let z1 := (xa 1 + xa 0) * b 1 + (yb 1 + yb 0) * a 1 + c 1
  let (r0, r1) ← draw g w fun _ => .both
  return ![z0 - r1 0, z1 + r0 1, 0]

/-- words of a matrix drawn from the generators -/
def drawMat (g : Gen) (v m n : ℕ) (d : Fin 3 → Ctrl) :
    M Sys ((Fin 3 → Matrix (Fin m) (Fin n) (BitVec v)) × (Fin 3 → Matrix (Fin m) (Fin n) (BitVec v))) := do
  let (r0, r1) ← draw g (v * (m * n)) d
  let cut : BitVec (v * (m * n)) → Matrix (Fin m) (Fin n) (BitVec v) := fun r i j => r.extractLsb' (v * (i.val * n + j.val)) v
  return (fun p => cut (r0 p), fun p => cut (r1 p))

/-- `MatMulAA` (`arithmetic.cc:457-545`) -/
def matMulAA (g : Gen) {l m n : ℕ} (x : Fin 3 → Matrix (Fin l) (Fin m) (BitVec w)) (y : Fin 3 → Matrix (Fin m) (Fin n) (BitVec w)) :
    M Sys (Fin 3 → Matrix (Fin l) (Fin n) (BitVec w)) := do
  let (a0, a1) ← drawMat g w l m ctrlAB
  let (b0, b1) ← drawMat g w m n ctrlAB
  let (c0, c1) ← drawMat g w l n ctrlC
  let cMsg := (a1 2 + a0 2) * (b1 2 + b0 2) - c1 2
  let xa0 := x 0 - a0 0
  let xa1 := x 1 - a1 1
  let yb0 := y 0 - b0 0
  let yb1 := y 1 - b1 1
  let z0 := (xa0 + xa1) * b0 0 + a0 0 * (yb0 + yb1) + c0 0 + (xa0 + xa1) * (yb0 + yb1)
  let z1 := (xa1 + xa0) * b1 1 + a1 1 * (yb1 + yb0) + cMsg
  let (r0, r1) ← drawMat g w l n fun _ => .both
  return ![z0 - r1 0, z1 + r0 1, 0]

/-- rank 2 sends its share to rank 0 and continues with zero (`arithmetic.cc:278-288`, `conversion.cc:84-92`, `:176-184`) -/
def moveShare {R : Type} [Add R] [Zero R] (x : Fin 3 → R) : Fin 3 → R := ![x 0 + x 2, x 1, 0]

/-- the shares of `r`, `rc`, `rb` after the adjustment by rank 2 (`arithmetic.cc:200-225`) -/
def truncPair (r rc rb : Fin 3 → BitVec w) (bits : ℕ) : (Fin 3 → BitVec w) × (Fin 3 → BitVec w) :=
  let rr := gatherSum (· + ·) 0 r
  let adjust1 := ((rr <<< 1) >>> (bits + 1)) - gatherSum (· + ·) 0 rc
  let adjust2 := (rr >>> (w - 1)) - gatherSum (· + ·) 0 rb
  (fun i => if i = 0 then rc i + adjust1 else rc i, fun i => if i = 0 then rb i + adjust2 else rb i)

/-- `TruncAPr` (`arithmetic.cc:185-290`): the middle part is that of semi2k. -/
def truncAPr (g : Gen) (x : Fin 3 → BitVec w) (bits : ℕ) : M Sys (Fin 3 → BitVec w) := do
  let r ← genPriv g w
  let rc ← genPriv g w
  let rb ← genPriv g w
  let (rc', rb') := truncPair r rc rb bits
  return moveShare (Semi2k.truncAPr x r rc' rb' bits)

/-- the words that rank 2 holds in `TruncAPr`: the mask it reconstructed (`:205`) and what all parties open (`:239-254`) -/
def truncView (g : Gen) (x : Fin 3 → BitVec w) : M Sys (BitVec w × BitVec w) := do
  let r ← genPriv g w
  return (gatherSum (· + ·) 0 r,
    allReduce (· + ·) (fun j => (if j = 0 then x j + ((1 : BitVec w) <<< (w - 2)) else x j) + r j) 2)

/-! ## Boolean shares and conversions -/

/-- the triple of `AndBB` (`boolean.cc:154-199`) -/
def andTriple (g : Gen) (v : ℕ) : M Sys ((Fin 3 → BitVec v) × (Fin 3 → BitVec v) × (Fin 3 → BitVec v)) := do
  let (a0, a1) ← draw g v ctrlAB
  let (b0, b1) ← draw g v ctrlAB
  let (c0, c1) ← draw g v ctrlC
  let cMsg := ((a1 2 ^^^ a0 2) &&& (b1 2 ^^^ b0 2)) ^^^ c1 2
  return (![a0 0, a1 1, 0], ![b0 0, b1 1, 0], ![c0 0, cMsg, 0])

/-- the bits of `B2A_Randbit` (`conversion.cc:110-135`); `bit` is what rank 2 draws with `ring_randbit` -/
def snnRandBits (g : Gen) (bit : ℕ → Bool) (k : ℕ) : M Sys (ℕ → Fin 3 → BitVec w) := do
  let rs ← (List.range k).mapM fun _ => genPriv g w
  return fun j =>
    let r := rs.getD j fun _ => 0
    let adjust := BitVec.ofNat w (bit j).toNat - ((r 2 + r 0) + r 1)
    fun i => if i = 0 then r i + adjust else r i

/-- the sources of randomness; `publ` and `eqz` are not used by SecureNN -/
def snnEnv (g : Gen) (bit : ℕ → Bool) : Env Sys 3 w where
  prss := draw g w fun _ => .both
  priv := genPriv g w
  publ := pure fun _ => 0
  andT := andTriple g
  randBits := snnRandBits g bit
  eqz := pure (fun _ => 0, fun _ => 0)

/-- `B2A` (`conversion.cc:65-95`) -/
def snnB2A (g : Gen) (bit : ℕ → Bool) (x : BShr 3 w) : M Sys (Fin 3 → BitVec w) := do
  let r ← b2a (snnEnv g bit) x
  return moveShare r

/-- `B2A_Randbit` (`conversion.cc:97-186`), which opens words of the ring -/
def snnB2ARandbit (g : Gen) (bit : ℕ → Bool) (x : BShr 3 w) : M Sys (Fin 3 → BitVec w) := do
  enforce (decide (x.nb ≤ w))
  if x.nb = 0 then return fun _ => 0
  else do
    let r ← snnRandBits g bit x.nb
    let res : Fin 3 → BitVec w := fun i => (List.range x.nb).foldl (fun (acc : BitVec w) b =>
      let c : BitVec w := bitAt (openXor x w r i) b
      if i = 0 then acc + ((c + (1 - c * 2) * r b i) <<< b)
      else acc + (((1 - c * 2) * r b i) <<< b)) 0
    return moveShare res

/-- the words that rank 2 holds in `AndBB`: the masks `a`, `b` it computed (`boolean.cc:165-178`) and the two words all
parties open (`:206-213`) -/
def andView (g : Gen) (v : ℕ) (x y : Fin 3 → BitVec w) : M Sys ((BitVec v × BitVec v) × (BitVec v × BitVec v)) := do
  let (a0, a1) ← draw g v ctrlAB
  let (b0, b1) ← draw g v ctrlAB
  let a := ![a0 0, a1 1, 0]
  let b := ![b0 0, b1 1, 0]
  return ((a1 2 ^^^ a0 2, b1 2 ^^^ b0 2),
    (allReduce (· ^^^ ·) (fun j => (x j).setWidth v ^^^ a j) 2, allReduce (· ^^^ ·) (fun j => (y j).setWidth v ^^^ b j) 2))

/-- the bits that rank 2 chose in `B2A_Randbit` and the word all parties open (`conversion.cc:126-128`, `:159`) -/
def randbitView (g : Gen) (bit : ℕ → Bool) (x : BShr 3 w) : M Sys ((ℕ → Bool) × BitVec w) := do
  let r ← snnRandBits g bit x.nb
  return (bit, openXor x w r 2)

/-- the word of the mask array that is used for element `idx` in `AndBB` (`boolean.cc:147-150`, `:201-203`): the array has
`numField` words of `sizeT` bytes and is read in units of `sizeV` bytes; an array of one word has stride 0
(`core/shape.cc:38-44`, `core/ndarray_ref.h:433-437`).  The result is a byte offset. -/
def maskPlace (sizeV sizeT numel idx : ℕ) : ℕ :=
  let numField := (numel * sizeV + sizeT - 1) / sizeT
  if numField = 1 then 0 else sizeV * idx

/-- what `AndBB` opens for element `idx` of an array (`boolean.cc:206-213`); `a p` is the unit at byte offset `p` -/
def andOpen {v : ℕ} (sizeV sizeT numel : ℕ) (x : ℕ → Fin 3 → BitVec w) (a : ℕ → Fin 3 → BitVec v) (idx : ℕ) (i : Fin 3) : BitVec v :=
  allReduce (· ^^^ ·) (fun j => (x idx j).setWidth v ^^^ a (maskPlace sizeV sizeT numel idx) j) i

/-! ## Programs -/

/-- one kernel call on additive shares; operands are register numbers -/
inductive AOp (w : ℕ)
  | v2a (owner : Fin 3) (x : BitVec w)
  | p2a (p : BitVec w)
  | neg (i : ℕ)
  | addAA (i j : ℕ)
  | addAP (i : ℕ) (p : BitVec w)
  | mulAA (i j : ℕ)
  | mulAP (i : ℕ) (p : BitVec w)
  | lshift (i k : ℕ)
  | trunc (i bits : ℕ)

/-- the result of one call -/
def AOp.call (g : Gen) (regs : List (Fin 3 → BitVec w)) : AOp w → M Sys (Fin 3 → BitVec w)
  | .v2a o x => SnnK.v2a g o x
  | .p2a p => SnnK.p2a g p
  | .neg i => do
    let a ← (regs[i]? : Option (Fin 3 → BitVec w))
    return negA a
  | .addAA i j => do
    let a ← (regs[i]? : Option (Fin 3 → BitVec w))
    let b ← (regs[j]? : Option (Fin 3 → BitVec w))
    return SnnK.addAA a b
  | .addAP i p => do
    let a ← (regs[i]? : Option (Fin 3 → BitVec w))
    return SnnK.addAP a p
  | .mulAA i j => do
    let a ← (regs[i]? : Option (Fin 3 → BitVec w))
    let b ← (regs[j]? : Option (Fin 3 → BitVec w))
    SnnK.mulAA g a b
  | .mulAP i p => do
    let a ← (regs[i]? : Option (Fin 3 → BitVec w))
    return SnnK.mulAP a p
  | .lshift i k => do
    let a ← (regs[i]? : Option (Fin 3 → BitVec w))
    return lshiftA a k
  | .trunc i bits => do
    let a ← (regs[i]? : Option (Fin 3 → BitVec w))
    SnnK.truncAPr g a bits

/-- run a program -/
def runA (g : Gen) (ops : List (AOp w)) : M Sys (List (Fin 3 → BitVec w)) :=
  ops.foldlM (fun regs op => do
    let r ← AOp.call g regs op
    return regs ++ [r]) []

end Spu.Model.SnnK

import Verif.Model.CheetahZip

set_option autoImplicit false

/-!
# Model of `mpc/cheetah/ot/basic_ot_prot.cc`

Both parties run together: a share is a function of the rank and the flat index.  The oblivious transfers
(`ferret_ot_interface.h`) are a record of joint operations, named by the rank of the *sender*; what they must
deliver is specified in `Spec/CheetahOt.lean`, and the implementation in `cheetah/ot/yacl/ferret.cc` is modelled in
`Model/Ferret.lean`.  `none` is an exception.  Bytes (`uint8_t`) are `BitVec 8`, ring elements `BitVec w`.
-/

namespace Spu.Model.CheetahOt
open Spu.Model.Circ Spu.Model.CheetahZip

/-- what both sides hold after `SendRMRC`/`RecvRMRC`: the two messages, the choices, the chosen messages -/
structure Rot where
  m0 : ℕ → BitVec 8
  m1 : ℕ → BitVec 8
  ch : ℕ → BitVec 8
  rc : ℕ → BitVec 8

/-- the transfers of `ferret_ot_interface.h` that the protocols use, and the two local random generators -/
structure Ot (σ : Type) (w : ℕ) where
  /-- sender, bits of a message, number of instances -/
  rmrc : Fin 2 → ℕ → ℕ → M σ Rot
  /-- sender, bits (0: all), number of instances, correlations, choices; the outputs of sender and receiver -/
  camcc : Fin 2 → ℕ → ℕ → (ℕ → BitVec w) → (ℕ → BitVec 8) → M σ ((ℕ → BitVec w) × (ℕ → BitVec w))
  /-- sender, bits, levels, number of instances, correlations, choices -/
  collapse : Fin 2 → ℕ → ℕ → ℕ → (ℕ → BitVec w) → (ℕ → BitVec 8) → M σ ((ℕ → BitVec w) × (ℕ → BitVec w))
  /-- sender, messages per instance, bits of a message, number of instances, messages (instance-major), choices -/
  cmcc : Fin 2 → ℕ → ℕ → ℕ → (ℕ → BitVec 8) → (ℕ → BitVec 8) → M σ (ℕ → BitVec 8)
  /-- `Prg<uint8_t>::Fill` -/
  fill : ℕ → M σ (ℕ → BitVec 8)
  /-- `ring_randbit` -/
  randBit : ℕ → M σ (ℕ → BitVec w)

/-- the shares of both parties -/
abbrev Share (w : ℕ) := Fin 2 → ℕ → BitVec w

variable {σ : Type} {w : ℕ} (ot : Ot σ w)

/-- the packing loop of `AndTriple` — basic_ot_prot.cc:347-355 -/
def packBits (nbits : ℕ) (a : ℕ → BitVec 8) (i : ℕ) : BitVec w :=
  (List.range nbits).foldl (fun acc j => acc <<< 1 ||| (a (i * nbits + j) &&& 1).setWidth w) 0

/-- `AndTriple` — basic_ot_prot.cc:304-359.  Party 0 receives first, then sends. -/
def andTriple (n nbits : ℕ) : M σ (Share w × Share w × Share w) := do
  enforce (decide (0 < n))
  enforce (decide (1 ≤ nbits ∧ nbits ≤ w))
  let r10 ← ot.rmrc 1 1 (n * nbits)
  let r01 ← ot.rmrc 0 1 (n * nbits)
  let rv : Fin 2 → Rot := fun p => if p = 0 then r10 else r01
  let sd : Fin 2 → Rot := fun p => if p = 0 then r01 else r10
  let b := fun p i => (sd p).m1 i ^^^ (sd p).m0 i
  let c := fun p i => ((rv p).ch i &&& b p i) ^^^ (rv p).rc i ^^^ (sd p).m0 i
  return (fun p => packBits nbits (rv p).ch, fun p => packBits nbits (b p), fun p => packBits nbits (c p))

/-- `BitwiseAnd` — basic_ot_prot.cc:228-248; `nbits` is the declared bit count of the left operand -/
def bitwiseAnd (nbits n : ℕ) (x y : Share w) : M σ (Share w) := do
  let (a, b, c) ← andTriple ot n nbits
  let xa ← liftM (openShare .xor nbits n fun p i => x p i ^^^ a p i)
  let yb ← liftM (openShare .xor nbits n fun p i => y p i ^^^ b p i)
  return fun p i =>
    let z := xa i &&& b p i ^^^ yb i &&& a p i ^^^ c p i
    if p = 0 then z ^^^ (xa i &&& yb i) else z

/-- `CorrelatedAndTriple` — basic_ot_prot.cc:361-416: one bit `a` against two bits packed in a message -/
def corrAndTriple (n : ℕ) : M σ (Share w × Share w × Share w × Share w × Share w) := do
  enforce (decide (0 < n))
  let r10 ← ot.rmrc 1 2 n
  let r01 ← ot.rmrc 0 2 n
  let rv : Fin 2 → Rot := fun p => if p = 0 then r10 else r01
  let sd : Fin 2 → Rot := fun p => if p = 0 then r01 else r10
  let b := fun p i => (sd p).m1 i ^^^ (sd p).m0 i
  let c := fun p i => (((rv p).ch i <<< 1 ||| (rv p).ch i) &&& b p i) ^^^ (rv p).rc i ^^^ (sd p).m0 i
  return (fun p i => ((rv p).ch i &&& 1).setWidth w, fun p i => (b p i &&& 1).setWidth w, fun p i => (c p i &&& 1).setWidth w,
    fun p i => (b p i >>> 1 &&& 1).setWidth w, fun p i => (c p i >>> 1 &&& 1).setWidth w)

/-- `CorrelatedBitwiseAnd` — basic_ot_prot.cc:250-277, on one-bit shares -/
def corrAnd (n : ℕ) (x y0 y1 : Share w) : M σ (Share w × Share w) := do
  let (a, b0, c0, b1, c1) ← corrAndTriple ot n
  let xa ← liftM (openShare .xor 1 n fun p i => x p i ^^^ a p i)
  let y0b0 ← liftM (openShare .xor 1 n fun p i => y0 p i ^^^ b0 p i)
  let y1b1 ← liftM (openShare .xor 1 n fun p i => y1 p i ^^^ b1 p i)
  return (fun p i =>
      let z := xa i &&& b0 p i ^^^ y0b0 i &&& a p i ^^^ c0 p i
      if p = 0 then z ^^^ (xa i &&& y0b0 i) else z,
    fun p i =>
      let z := xa i &&& b1 p i ^^^ y1b1 i &&& a p i ^^^ c1 p i
      if p = 0 then z ^^^ (xa i &&& y1b1 i) else z)

/-- `SingleB2A` — basic_ot_prot.cc:165-210 (the declared bit count is one) -/
def singleB2A (bw n : ℕ) (x : Share w) : M σ (Share w) := do
  let bw := if bw = 0 then w else bw
  let msk ← liftM (makeBitsMask w bw)
  let (s, r) ← ot.camcc 0 bw n (fun i => -((x 0 i &&& 1) <<< 1)) (fun i => (x 1 i &&& 1).setWidth 8)
  return fun p i => if p = 0 then ((x 0 i &&& 1) - s i) &&& msk else ((x 1 i &&& 1) + r i) &&& msk

/-- `B2ASingleBitWithSize` — basic_ot_prot.cc:218-226 -/
def b2aSized (bw n : ℕ) (x : Share w) : M σ (Share w) := do
  enforce (decide (1 < bw ∧ bw < w))
  singleB2A ot bw n x

/-- `PackedB2A` — basic_ot_prot.cc:77-154; `i / n` is the bit and `i % n` the element of transfer `i` -/
def packedB2A (nbits n : ℕ) (x : Share w) : M σ (Share w) := do
  let nbits := if nbits = 0 then 1 else nbits
  let bit : Fin 2 → ℕ → ℕ → BitVec w := fun p k j => x p j >>> k &&& 1
  let masks ← liftM ((List.range nbits).mapM fun k => makeBitsMask w (w - k))
  let corr := fun i => (-(2 * bit 0 (i / n) (i % n))) &&& masks.getD (i / n) 0
  let (s, r) ← ot.collapse 0 w nbits (n * nbits) corr (fun i => (bit 1 (i / n) (i % n)).setWidth 8)
  let cot : Fin 2 → ℕ → ℕ → BitVec w := fun p k j => if p = 0 then bit 0 k j - s (k * n + j) else bit 1 k j + r (k * n + j)
  return fun p j => (List.range nbits).foldl (fun acc k => acc + cot p k j <<< k) 0

/-- `B2A` — basic_ot_prot.cc:63-69 -/
def b2a (nbits n : ℕ) (x : Share w) : M σ (Share w) :=
  if nbits = 1 then singleB2A ot 0 n x else packedB2A ot nbits n x

/-- `RandBits` — basic_ot_prot.cc:213-216: each party draws its own bits -/
def randBits (n : ℕ) : M σ (Share w) := do
  let r0 ← ot.randBit n
  let r1 ← ot.randBit n
  singleB2A ot 0 n fun p => if p = 0 then r0 else r1

/-- `Multiplexer` — basic_ot_prot.cc:420-463 -/
def multiplexer (n : ℕ) (msg sel : Share w) : M σ (Share w) := do
  let bit : Fin 2 → ℕ → BitVec 8 := fun p i => (sel p i &&& 1).setWidth 8
  let corr : Fin 2 → ℕ → BitVec w := fun p i => msg p i * (1 - 2 * (bit p i).setWidth w)
  let (s0, r1) ← ot.camcc 0 0 n (corr 0) (bit 1)
  let (s1, r0) ← ot.camcc 1 0 n (corr 1) (bit 0)
  return fun p i => if p = 0 then msg 0 i * (bit 0 i).setWidth w - s0 i + r0 i else msg 1 i * (bit 1 i).setWidth w - s1 i + r1 i

/-- `PrivateMulxRecv` by the owner, `PrivateMulxSend` by the other party — basic_ot_prot.cc:465-530 -/
def privateMulx (owner : Fin 2) (n : ℕ) (msg : Share w) (sel : ℕ → BitVec w) : M σ (Share w) := do
  let bit : ℕ → BitVec 8 := fun i => (sel i &&& 1).setWidth 8
  let (s, r) ← ot.camcc (1 - owner) 0 n (msg (1 - owner)) bit
  return fun p i => if p = owner then msg p i * (bit i &&& 1).setWidth w + r i else -s i

end Spu.Model.CheetahOt

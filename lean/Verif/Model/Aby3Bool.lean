import Verif.Model.Aby3
import Verif.Model.Semi2kConv

set_option autoImplicit false

/-!
# aby3: boolean kernels (`mpc/aby3/boolean.cc`)

A boolean share is stored in words of `calcBShareBacktype(nbits)` bits; `w` is the width of the ring.
C++ promotes words narrower than 32 bits before shifting, so a shift is defined when the amount is
below `max 32` of the width.
-/

namespace Spu.Model.Aby3
open Spu.Model.Circ Spu.Model.Bits Spu.Model.Prg
open Spu.Model.Semi2k (backBits)
open Spu.Model.Semi2kConv (wordWidth bitrevWord BOp)

/-- apply a function to every component -/
def mapSh {α β : Type} (f : α → β) (x : Sh α) : Sh β := ⟨fun i => f (x.fst i), fun i => f (x.snd i)⟩

/-- component-wise combination -/
def zipSh {α β γ : Type} (f : α → β → γ) (x : Sh α) (y : Sh β) : Sh γ :=
  ⟨fun i => f (x.fst i) (y.fst i), fun i => f (x.snd i) (y.snd i)⟩

/-- a shift by `k` of words of `v` bits is defined -/
def shiftOk (v k : ℕ) : Bool := decide (k < max v 32)

section
variable {σ : Type} {w : ℕ}

/-- `CommonTypeB` and `CastTypeB` (`boolean.cc:29-67`): `a` in the common type of `a` and `b` -/
def castBB (a b : BShr) : M σ BShr := do
  let v ← (backBits (max a.nb b.nb) : Option ℕ)
  return ⟨v, max a.nb b.nb, mapSh (BitVec.setWidth v) a.sh⟩

/-- `RandB::proc` (`boolean.cc:69-97`) -/
def randB (w : ℕ) (E : Env σ) : M σ BShr := do
  let r ← both E w
  return ⟨8, 1, ⟨fun i => (r.1 i &&& 1).setWidth 8, fun i => (r.2 i &&& 1).setWidth 8⟩⟩

/-- `B2P::proc` (`boolean.cc:99-127`): what every party obtains -/
def b2p (a : BShr) : Fin 3 → BitVec w := fun i =>
  (a.sh.fst i ^^^ a.sh.snd i ^^^ rotate a.sh.snd i).setWidth w

/-- `B2V::proc` (`boolean.cc:165-209`) -/
def b2v (a : BShr) (rank : Fin 3) : Fin 3 → BitVec w := fun i =>
  if i = rank then (a.sh.fst i ^^^ a.sh.snd i ^^^ a.sh.snd (i + 1)).setWidth w else 0

/-- `P2B::proc` (`boolean.cc:129-163`); `np` is `maxBitWidth` of the public array. -/
def p2bK3 (p : BitVec w) (np : ℕ) : M σ BShr := do
  let v ← (backBits np : Option ℕ)
  return ⟨v, np, ⟨fun i => if i = 0 then p.setWidth v else 0, fun i => if i = 2 then p.setWidth v else 0⟩⟩

/-- `AndBP::proc` (`boolean.cc:211-247`) -/
def andBP3 (a : BShr) (p : BitVec w) (np : ℕ) : M σ BShr := do
  let v ← (backBits (min a.nb np) : Option ℕ)
  return ⟨v, min a.nb np, mapSh (fun l => (l.setWidth (max a.v w) &&& p.setWidth (max a.v w)).setWidth v) a.sh⟩

/-- `AndBB::proc` (`boolean.cc:249-299`) -/
def andBB3 (E : Env σ) (a b : BShr) : M σ BShr := do
  let v ← (backBits (min a.nb b.nb) : Option ℕ)
  let r ← both E v
  let u := max a.v b.v
  let z : Fin 3 → BitVec v := fun i =>
    let l0 := (a.sh.fst i).setWidth u
    let l1 := (a.sh.snd i).setWidth u
    let r0 := (b.sh.fst i).setWidth u
    let r1 := (b.sh.snd i).setWidth u
    ((l0 &&& r0) ^^^ (l0 &&& r1) ^^^ (l1 &&& r0)).setWidth v ^^^ (r.1 i ^^^ r.2 i)
  return ⟨v, min a.nb b.nb, ⟨z, rotate z⟩⟩

/-- `XorBP::proc` (`boolean.cc:301-334`) -/
def xorBP3 (a : BShr) (p : BitVec w) (np : ℕ) : M σ BShr := do
  let v ← (backBits (max a.nb np) : Option ℕ)
  return ⟨v, max a.nb np, mapSh (fun l => (l.setWidth (max a.v w) ^^^ p.setWidth (max a.v w)).setWidth v) a.sh⟩

/-- `XorBB::proc` (`boolean.cc:336-371`) -/
def xorBB3 (a b : BShr) : M σ BShr := do
  let v ← (backBits (max a.nb b.nb) : Option ℕ)
  let u := max a.v b.v
  return ⟨v, max a.nb b.nb, zipSh (fun l r => (l.setWidth u ^^^ r.setWidth u).setWidth v) a.sh b.sh⟩

/-- `LShiftB::proc` (`boolean.cc:375-409`) on an element shifted by `k` of an array in which `kmax` is the
largest amount -/
def lshiftV3 (w : ℕ) (a : BShr) (kmax k : ℕ) : M σ BShr := do
  let v ← (backBits (min (a.nb + kmax) w) : Option ℕ)
  enforce (shiftOk v k)
  return ⟨v, min (a.nb + kmax) w, mapSh (fun l : BitVec a.v => l.setWidth v <<< k) a.sh⟩

/-- one amount for the array -/
def lshiftB3 (w : ℕ) (a : BShr) (k : ℕ) : M σ BShr := lshiftV3 w a k k

/-- `RShiftB::proc` (`boolean.cc:411-442`) on an element shifted by `k`; `kmin` is the smallest amount -/
def rshiftV3 (a : BShr) (kmin k : ℕ) : M σ BShr := do
  let v ← (backBits (a.nb - min a.nb kmin) : Option ℕ)
  enforce (shiftOk a.v k)
  return ⟨v, a.nb - min a.nb kmin, mapSh (fun l : BitVec a.v => (l >>> k).setWidth v) a.sh⟩

/-- one amount for the array -/
def rshiftB3 (a : BShr) (k : ℕ) : M σ BShr := rshiftV3 a k k

/-- `ARShiftB::proc` (`boolean.cc:444-474`) -/
def arshiftB3 (w : ℕ) (a : BShr) (k : ℕ) : M σ BShr := do
  enforce (decide (a.nb = w))
  enforce (shiftOk a.v k)
  return ⟨a.v, a.nb, mapSh (fun l => l.sshiftRight k) a.sh⟩

/-- `BitrevB::proc` (`boolean.cc:476-517`); the largest shift is by `end`. -/
def bitrevB3 (a : BShr) (start stop : ℕ) : M σ BShr := do
  enforce (decide (start ≤ stop ∧ stop ≤ 128))
  let v ← (backBits (max a.nb stop) : Option ℕ)
  enforce (shiftOk v stop)
  return ⟨v, max a.nb stop, mapSh (fun l => bitrevWord (l.setWidth v) start stop) a.sh⟩

/-- component-wise map that may fail -/
def mapShM {v : ℕ} (f : BitVec v → Option (BitVec v)) (x : Sh (BitVec v)) : Option (Sh (BitVec v)) :=
  if (∀ i, (f (x.fst i)).isSome) ∧ (∀ i, (f (x.snd i)).isSome) then some (mapSh (fun l => (f l).getD 0) x) else none

/-- `BitIntlB::proc` (`boolean.cc:519-543`) -/
def bitintlB3 (a : BShr) (stride : ℕ) : M σ BShr := do
  enforce (singleBit a.nb)
  let r ← (mapShM (fun l => bitIntl l stride a.nb) a.sh : Option (Sh (BitVec a.v)))
  return ⟨a.v, a.nb, r⟩

/-- `BitDeintlB::proc` (`boolean.cc:545-567`) -/
def bitdeintlB3 (a : BShr) (stride : ℕ) : M σ BShr := do
  enforce (singleBit a.nb)
  let r ← (mapShM (fun l => bitDeintl l stride a.nb) a.sh : Option (Sh (BitVec a.v)))
  return ⟨a.v, a.nb, r⟩

/-- the aby3 kernels behind the boolean-share API -/
def gates3 (E : Env σ) : Gates σ BShr w where
  nb := BShr.nb
  xorBB := xorBB3
  andBB := andBB3 E
  andBP a p := andBP3 a p (wordWidth p)
  lshift := lshiftB3 w
  rshift := rshiftB3
  bitdeintl := bitdeintlB3
  bitintl := bitintlB3

end

end Spu.Model.Aby3

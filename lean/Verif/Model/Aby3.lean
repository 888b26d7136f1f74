import Verif.Model.Gates
import Verif.Model.Prg
import Verif.Model.Trunc

set_option autoImplicit false

/-!
# aby3: arithmetic kernels, three-party OT, truncation and input/output
(`mpc/aby3/{arithmetic,ot,io}.cc`)

Three parties; party `i` holds a pair `(fst i, snd i)`.  A kernel is written for all three parties at
once; a message is a use of another party's value (links are reliable and ordered, trusted base).
Ring elements are `BitVec w` or, where nothing but ring operations is used, any ring.
Kernels whose loops are element-wise and draw one word per element are written for one element;
`privateMul`, the pivot-based truncations and the OT-based conversion draw several words per element
from one request and are written for arrays `ℕ → _` of `N` elements.
`none` is an exception, undefined behaviour or a deadlock.
-/

namespace Spu.Model.Aby3
open Spu.Model.Circ Spu.Model.Prg

/-- what the three parties hold: `std::array<el_t, 2>` at every rank -/
structure Sh (α : Type) where
  fst : Fin 3 → α
  snd : Fin 3 → α

/-- Randomness of a session (`mpc/common/prg_state.h`).
* `prss v cnt d`: party `i` performs the `fillPrssPair` calls `d i`, each for `cnt` words of `v` bits;
  the words written to the first / to the second output, in order;
* `priv v cnt i`: `fillPriv` at party `i`;
* `publ`: `fillPubl` of one `size_t` at every party. -/
structure Env (σ : Type) where
  prss : (v cnt : ℕ) → (Fin 3 → List Ctrl) → M σ (Fin 3 → List (ℕ → BitVec v) × List (ℕ → BitVec v))
  priv : (v cnt : ℕ) → Fin 3 → M σ (ℕ → BitVec v)
  publ : M σ (Fin 3 → BitVec 64)

/-- `k`-th buffer filled from the first / the second stream of party `i` -/
def Env.one {v : ℕ} (r : Fin 3 → List (ℕ → BitVec v) × List (ℕ → BitVec v)) (k : ℕ) (i : Fin 3) :
    ℕ → BitVec v := (r i).1.getD k (fun _ => 0)
@[inherit_doc Env.one]
def Env.two {v : ℕ} (r : Fin 3 → List (ℕ → BitVec v) × List (ℕ → BitVec v)) (k : ℕ) (i : Fin 3) :
    ℕ → BitVec v := (r i).2.getD k (fun _ => 0)

open Env

/-- `fillPrssPair(r0, r1, 1, Both)` at all parties: one word from either stream -/
def both {σ : Type} (E : Env σ) (v : ℕ) : M σ ((Fin 3 → BitVec v) × (Fin 3 → BitVec v)) := do
  let r ← E.prss v 1 (fun _ => [.both])
  return (fun i => one r 0 i 0, fun i => two r 0 i 0)

/-! ### Kernels that only use ring operations -/

section Ring
variable {R : Type} [CommRing R]

/-- `A2P::proc` (`arithmetic.cc:147-173`) -/
def a2p (x : Sh R) : Fin 3 → R := fun i => x.fst i + x.snd i + rotate x.snd i

/-- `P2A::proc` (`arithmetic.cc:175-218`); the debugging mask (`ENABLE_MASK_DURING_ABY3_P2A`) is
not compiled in. -/
def p2a (p : R) : Sh R := ⟨fun i => if i = 0 then p else 0, fun i => if i = 2 then p else 0⟩

/-- `A2V::proc` (`arithmetic.cc:220-256`): party `rank` receives the second component of the next
party; the others hold the constant zero. -/
def a2v (x : Sh R) (rank : Fin 3) : Fin 3 → R := fun i =>
  if i = rank then x.fst i + x.snd i + x.snd (i + 1) else 0

/-- `V2A::proc` (`arithmetic.cc:258-301`); `rnd` is the random word of `ring_rand_additive_splits(in, 2)`. -/
def v2a (owner : Fin 3) (v rnd : R) : Sh R :=
  let s := Semi2k.additiveSplits (n := 2) v (fun _ => rnd)
  ⟨fun i => if i = owner then s 0 else if i = owner + 1 then s 1 else 0,
   fun i => if i = owner then s 1 else if i = owner + 1 then 0 else s 0⟩

/-- `NegateA::proc` (`arithmetic.cc:303-325`) -/
def negateA (x : Sh R) : Sh R := ⟨fun i => -x.fst i, fun i => -x.snd i⟩

/-- `AddAP::proc` (`arithmetic.cc:327-355`) -/
def addAP (x : Sh R) (p : R) : Sh R :=
  ⟨fun i => if i = 1 then x.fst i + p else x.fst i, fun i => if i = 0 then x.snd i + p else x.snd i⟩

/-- `AddAA::proc` (`arithmetic.cc:357-378`) -/
def addAA (x y : Sh R) : Sh R := ⟨fun i => x.fst i + y.fst i, fun i => x.snd i + y.snd i⟩

/-- `MulAP::proc` (`arithmetic.cc:384-407`) -/
def mulAP (x : Sh R) (p : R) : Sh R := ⟨fun i => x.fst i * p, fun i => x.snd i * p⟩

/-- `MulAA::proc` (`arithmetic.cc:409-445`); `r0 r1` are the PRSS words. -/
def mulAA (x y : Sh R) (r0 r1 : Fin 3 → R) : Sh R :=
  let z : Fin 3 → R := fun i =>
    x.fst i * y.fst i + x.fst i * y.snd i + x.snd i * y.fst i + (r0 i - r1 i)
  ⟨z, rotate z⟩

/-- `MatMulAP::proc` (`arithmetic.cc:594-610`) -/
def matMulAP {m k l : ℕ} (x : Sh (Matrix (Fin m) (Fin k) R)) (y : Matrix (Fin k) (Fin l) R) :
    Sh (Matrix (Fin m) (Fin l) R) := ⟨fun i => x.fst i * y, fun i => x.snd i * y⟩

/-- `MatMulAA::proc` (`arithmetic.cc:612-661`), CPU branch; `r0 r1` are the PRSS matrices. -/
def matMulAA {m k l : ℕ} (x : Sh (Matrix (Fin m) (Fin k) R)) (y : Sh (Matrix (Fin k) (Fin l) R))
    (r0 r1 : Fin 3 → Matrix (Fin m) (Fin l) R) : Sh (Matrix (Fin m) (Fin l) R) :=
  let z : Fin 3 → Matrix (Fin m) (Fin l) R := fun i =>
    x.fst i * (y.fst i + y.snd i) + x.snd i * y.fst i + (r0 i - r1 i)
  ⟨z, rotate z⟩

/-- `Aby3Io::toShares`, secret without owner (`io.cc:72-87`): `rnd` are the random words of
`ring_rand_additive_splits`. -/
def toSharesA (v : R) (rnd : Fin 3 → R) : Sh R :=
  let s := Semi2k.additiveSplits v rnd
  ⟨s, fun i => s (i + 1)⟩

/-- `Aby3Io::fromShares` for arithmetic shares (`io.cc:147-164`) -/
def fromSharesA (x : Sh R) : R := (List.finRange 3).foldl (fun acc i => acc + x.fst i) 0

end Ring

section Word
variable {σ : Type} {w : ℕ}

/-- `RandA::proc` (`arithmetic.cc:120-145`) -/
def randA (E : Env σ) : M σ (Sh (BitVec w)) := do
  let r ← both E w
  return ⟨fun i => r.1 i >>> 2, fun i => r.2 i >>> 2⟩

/-- `MulAA` with its draws -/
def mulAAK (E : Env σ) (x y : Sh (BitVec w)) : M σ (Sh (BitVec w)) := do
  let r ← both E w
  return mulAA x y r.1 r.2

/-- `LShiftA::proc` (`arithmetic.cc:663-684`); shifting by the word width or more is undefined. -/
def lshiftA (x : Sh (BitVec w)) (k : ℕ) : Option (Sh (BitVec w)) :=
  if k < w then some ⟨fun i => x.fst i <<< k, fun i => x.snd i <<< k⟩ else none

/-- `TruncA::proc` (`arithmetic.cc:690-741`): party 0 receives party 1's `z1`; `ring_arshift` by the
word width or more is undefined. -/
def truncA (E : Env σ) (x : Sh (BitVec w)) (bits : ℕ) : M σ (Sh (BitVec w)) := do
  enforce (decide (bits < w))
  let r ← both E w
  let z1 := -((-(x.fst 1 + x.snd 1)).sshiftRight bits) - r.2 1
  return ⟨fun i => if i = 0 then (x.fst i).sshiftRight bits else if i = 1 then z1 else r.1 i,
    fun i => if i = 0 then z1 else if i = 1 then r.2 i else (x.snd i).sshiftRight bits⟩

/-! ### Three-party OT -/

/-- `inFrontOf` (`ot.cc:23`) -/
def inFrontOf (a b : Fin 3) : Bool := decide (a + 1 = b)

/-- `Ot3::genMasks` (`ot.cc:41-80`): the correlated draws of the three parties -/
def otScript (sender helper : Fin 3) : Fin 3 → List Ctrl := fun i =>
  if i = sender then (if inFrontOf sender helper then [.second, .second] else [.first, .first])
  else if i = helper then (if inFrontOf sender helper then [.first, .first] else [.second, .second])
  else []

/-- the masks `w0`, `w1` that party `i` (sender or helper) obtains -/
def otMasks (sender helper : Fin 3) (r : Fin 3 → List (ℕ → BitVec w) × List (ℕ → BitVec w))
    (i : Fin 3) (k : ℕ) : ℕ → BitVec w :=
  if (i = sender) = inFrontOf sender helper then two r k i else one r k i

/-- `ring_select(c, x, y)` (`mpc/utils/ring_ops.cc`): `y` where the choice is set -/
def select (c : Bool) (x y : BitVec w) : BitVec w := if c then y else x

/-- `Ot3::send`, `Ot3::help`, `Ot3::recv` (`ot.cc:82-159`) on one element: what the receiver computes.
`ws`, `wh` are the masks of sender and helper, `ch`, `cr` the choices of helper and receiver. -/
def ot3 (m0 m1 ws0 ws1 wh0 wh1 : BitVec w) (ch cr : Bool) : BitVec w :=
  let mm0 := m0 ^^^ ws0
  let mm1 := m1 ^^^ ws1
  let wc := select ch wh0 wh1
  select cr mm0 mm1 ^^^ wc

/-! ### Boolean shares -/

/-- A boolean share of one element: storage width `v` (`BShrTy::getBacktype`), declared bit count
`nb` (`BShrTy::nbits`). -/
structure BShr where
  v : ℕ
  nb : ℕ
  sh : Sh (BitVec v)

/-- `a1b_offline` (`arithmetic.cc:36-101`): the correlated draws -/
def a1bScript (sender : Fin 3) : Fin 3 → List Ctrl := fun i =>
  if i = sender then [.first, .second] else if i = sender + 1 then [.first] else [.second]

/-- `a1b_offline`: the messages `m0`, `m1` of the sender -/
def a1bMsg (sender : Fin 3) (a : BitVec w) (b : BShr) (c1 c2 : BitVec w) (m : BitVec w) : BitVec w :=
  (m ^^^ (b.sh.fst sender &&& 1).setWidth w ^^^ (b.sh.snd sender &&& 1).setWidth w) * a - c1 - c2

/-- lowest bit of the first / second component at party `i` (`ring_cast_boolean`, `arithmetic.cc:103-116`) -/
def lsb {v : ℕ} (x : BitVec v) : Bool := x.getLsbD 0

/-- one OT of `MulA1B` (`arithmetic.cc:500-573`, once for `sender1`, once for `sender2`): `d` are the
offline draws, `o` the masks -/
def a1bOt (sender : Fin 3) (a : BitVec w) (b : BShr)
    (d o : Fin 3 → List (ℕ → BitVec w) × List (ℕ → BitVec w)) : Sh (BitVec w) :=
  let helper := sender + 1
  let receiver := sender + 2
  let m := a1bMsg sender a b (one d 0 sender 0) (two d 0 sender 0)
  let c := ot3 (m 0) (m 1) (otMasks sender helper o sender 0 0) (otMasks sender helper o sender 1 0)
    (otMasks sender helper o helper 0 0) (otMasks sender helper o helper 1 0)
    (lsb (b.sh.snd helper)) (lsb (b.sh.fst receiver))
  ⟨fun i => if i = sender then one d 0 i 0 else if i = helper then one d 0 i 0 else c,
   fun i => if i = sender then two d 0 i 0 else if i = helper then c else two d 0 i 0⟩

/-- `MulA1B::proc` (`arithmetic.cc:451-588`) -/
def mulA1B (E : Env σ) (x : Sh (BitVec w)) (b : BShr) : M σ (Sh (BitVec w)) := do
  enforce (decide (b.nb = 1))
  enforce (decide (b.nb ≤ w))
  let d1 ← E.prss w 1 (a1bScript 0)
  let d2 ← E.prss w 1 (a1bScript 2)
  let o1 ← E.prss w 1 (otScript 0 1)
  let o2 ← E.prss w 1 (otScript 2 0)
  let r1 := a1bOt 0 (x.snd 0) b d1 o1
  let r2 := a1bOt 2 (x.fst 2 + x.snd 2) b d2 o2
  return addAA r1 r2

/-! ### Truncations with rotating roles -/

/-- The roles `P0 = pivot % 3`, `P1 = (pivot + 1) % 3`, `P2 = (pivot + 2) % 3` computed by every party
from its copy of the public 64-bit `pivot` (`arithmetic.cc:871-875`, `1092-1096`, `1336-1340`,
`conversion.cc:342-346`, `654-658`); the additions wrap.  If the parties disagree, or if two roles fall
on one party, a party sends to itself or waits for a message nobody sends. -/
def roles (pv : Fin 3 → BitVec 64) : Option (Fin 3 × Fin 3 × Fin 3) :=
  let p := pv 0
  let P0 := Fin.ofNat 3 (p.toNat % 3)
  let P1 := Fin.ofNat 3 ((p + 1).toNat % 3)
  let P2 := Fin.ofNat 3 ((p + 2).toNat % 3)
  if pv 1 = p ∧ pv 2 = p ∧ P0 ≠ P1 ∧ P0 ≠ P2 ∧ P1 ≠ P2 then some (P0, P1, P2) else none

/-- arrays of shares held by the parties, and arrays of words held by the two computing roles -/
abbrev Arr (w : ℕ) := ℕ → BitVec w

/-- `PrivateMul` (`arithmetic.cc:781-845`) together with the helper's part (`arithmetic.cc:1015-1036`,
`1443-1464`): `x0`, `x1` are the inputs of `P0` and `P1`; returns their outputs. -/
def privateMul {v : ℕ} (E : Env σ) (N : ℕ) (P0 P1 P2 : Fin 3) (x0 x1 : Arr v) : M σ (Arr v × Arr v) := do
  let r ← E.prss v (2 * N) (fun i =>
    if i = P0 then [.first] else if i = P1 then [.second] else [.second, .first])
  -- `P0`: `a`, `c0`; `P1`: `b`, `c1`
  let ac0 := one r 0 P0
  let bc1 := two r 0 P1
  -- `P2`: the same words, and the adjustment
  let ac0' := two r 0 P2
  let bc1' := one r 0 P2
  let adjusted : Arr v := fun j => ac0' j * bc1' j - ac0' (N + j) - bc1' (N + j)
  let xPlusA : Arr v := fun j => x0 j + ac0 j
  let yPlusB : Arr v := fun j => x1 j + bc1 j
  return (fun j => x0 j * yPlusB j + ac0 (N + j),
    fun j => -(bc1 j) * xPlusA j + (bc1 (N + j) + adjusted j))

/-- "3-3 re-sharing" (`arithmetic.cc:953-972`, `998-1017`, `1041-1050`; identical in `TruncAPr`,
`1157-1174`, `1208-1222`, `1248-1256`, and in `TruncAPr2`, `1382-1401`, `1425-1444`, `1470-1479`):
`P0`, `P1` hold `y0`, `y1`. -/
def reshare (E : Env σ) (N : ℕ) (P0 P1 _P2 : Fin 3) (y0 y1 : Arr w) : M σ (Sh (Arr w)) := do
  let r ← E.prss w N (fun i =>
    if i = P0 then [.first] else if i = P1 then [.second] else [.both])
  let t0 : Arr w := fun j => y0 j - one r 0 P0 j
  let t1 : Arr w := fun j => y1 j - two r 0 P1 j
  return ⟨fun i => if i = P0 then one r 0 i else if i = P1 then fun j => t1 j + t0 j else one r 0 i,
    fun i => if i = P0 then fun j => t0 j + t1 j else if i = P1 then two r 0 i else two r 0 i⟩

/-- `SignType` (`core/context.h`) without `Unknown` -/
inductive Sign | positive | negative
  deriving DecidableEq, Repr

/-- `x` for a positive hint, `1 - x` for a negative one -/
def Sign.flip {v : ℕ} : Sign → BitVec v → BitVec v
  | .positive, x => x
  | .negative, x => 1 - x

/-- the other party's part of `Sign.flip` of a sum -/
def Sign.flip' {v : ℕ} : Sign → BitVec v → BitVec v
  | .positive, x => x
  | .negative, x => 0 - x

/-- top bit as a word -/
def topBit {v : ℕ} (x : BitVec w) : BitVec v := ((x >>> (w - 1)) &&& 1).setWidth v

/-- `TruncPrWithMsbKnown` (`arithmetic.cc:859-1061`) after the roles are fixed; the shifts by
`ell - bits` and `ell - bits - 1` are defined only for `0 < bits < ell`. -/
def truncPrMsbWith (E : Env σ) (N : ℕ) (sign : Sign) (bits : ℕ) (x : Sh (Arr w)) (P0 P1 P2 : Fin 3) :
    M σ (Sh (Arr w)) := do
  enforce (decide (0 < bits ∧ bits < w))
  let v ← (Semi2k.truncFieldWidth bits : Option ℕ)
  let x0 : Arr w := fun j => x.fst P0 j + x.snd P0 j + (1 : BitVec w) <<< (w - 1)
  let x1 : Arr w := fun j => x.snd P1 j
  let z ← privateMul (v := v) E N P0 P1 P2 (fun j => sign.flip (topBit (x0 j))) (fun j => sign.flip (topBit (x1 j)))
  let wrap0 : Arr v := fun j => sign.flip (z.1 j)
  let wrap1 : Arr v := fun j => sign.flip' (z.2 j)
  let y0 : Arr w := fun j =>
    (x0 j >>> bits) - ((wrap0 j).setWidth w <<< (w - bits)) - (1 : BitVec w) <<< (w - bits - 1)
  let y1 : Arr w := fun j => (x1 j >>> bits) - ((wrap1 j).setWidth w <<< (w - bits))
  reshare E N P0 P1 P2 y0 y1

/-- `TruncAPr::proc` with unknown sign (`arithmetic.cc:1074-1262`) after the roles are fixed; the shift
by `k - 2 - bits` is defined only for `bits ≤ k - 2`. -/
def truncAPrWith (E : Env σ) (N : ℕ) (bits : ℕ) (x : Sh (Arr w)) (P0 P1 P2 : Fin 3) :
    M σ (Sh (Arr w)) := do
  enforce (decide (bits + 2 ≤ w))
  let r ← E.prss w N (fun i =>
    if i = P0 then [.first] else if i = P1 then [.second] else [.both])
  let cr0 ← E.priv w (2 * N) P2
  -- `P2`
  let rr : Arr w := fun j => one r 0 P2 j + two r 0 P2 j
  let rb1 : Arr w := fun j => -(cr0 j)
  let rc1 : Arr w := fun j => -(cr0 (N + j))
  let rb0 : Arr w := fun j => cr0 j + rr j >>> (w - 1)
  let rc0 : Arr w := fun j => cr0 (N + j) + (rr j <<< 1) >>> (bits + 1)
  -- `P0`, `P1`
  let xr0 : Arr w := fun j => x.fst P0 j + x.snd P0 j + (1 : BitVec w) <<< (w - 2) + one r 0 P0 j
  let xr1 : Arr w := fun j => x.snd P1 j + two r 0 P1 j
  let y0 : Arr w := fun j =>
    let c := xr0 j + xr1 j
    let ck1 := c >>> (w - 1)
    let b := rb0 j + ck1 - 2 * ck1 * rb0 j
    let cHat := (c <<< 1) >>> (1 + bits)
    let y := cHat - rc0 j + (b <<< (w - 1 - bits))
    y - ((1 : BitVec w) <<< (w - 2 - bits))
  let y1 : Arr w := fun j =>
    let c := xr1 j + xr0 j
    let ck1 := c >>> (w - 1)
    let b := rb1 j + 0 - 2 * ck1 * rb1 j
    0 - rc1 j + (b <<< (w - 1 - bits))
  reshare E N P0 P1 P2 y0 y1

/-- `computeMW` (`arithmetic.cc:1268-1314`) -/
def computeMW {v : ℕ} (E : Env σ) (N : ℕ) (P0 P1 P2 : Fin 3) (x0 x1 : Arr w) : M σ (Arr v × Arr v) := do
  let L4 : BitVec w := (1 : BitVec w) <<< (w - 2)
  let L2 : BitVec w := L4 <<< 1
  let (m0, m1) ← privateMul E N P0 P1 P2 (fun j => Semi2k.b2w (decide ((x0 j - L4) ≥ L2)))
    (fun j => Semi2k.b2w (decide (x1 j ≥ L2)))
  return (fun j => m0 j + (1 - Semi2k.b2w (decide (x0 j < L4))), m1)

/-- `TruncAPr2::proc` (`arithmetic.cc:1325-1490`) after the roles are fixed; the shift by `k - bits` is
defined only for `0 < bits ≤ k`, the one by `bits` only for `bits < k`. -/
def truncAPr2With (E : Env σ) (N : ℕ) (bits : ℕ) (x : Sh (Arr w)) (P0 P1 P2 : Fin 3) :
    M σ (Sh (Arr w)) := do
  enforce (decide (0 < bits ∧ bits < w))
  let v ← (Semi2k.truncFieldWidth bits : Option ℕ)
  let x0 : Arr w := fun j => x.fst P0 j + x.snd P0 j
  let x1 : Arr w := fun j => x.snd P1 j
  let mw ← computeMW (v := v) E N P0 P1 P2 x0 x1
  let y0 : Arr w := fun j =>
    (x0 j >>> bits) - (mw.1 j).setWidth w * ((1 : BitVec w) <<< (w - bits)) + 1
  let y1 : Arr w := fun j =>
    (x1 j >>> bits) - (mw.2 j).setWidth w * ((1 : BitVec w) <<< (w - bits))
  reshare E N P0 P1 P2 y0 y1

/-- draw the pivot, then run a kernel with the roles it gives -/
def pivoted {α : Type} (E : Env σ) (f : Fin 3 → Fin 3 → Fin 3 → M σ α) : M σ α := do
  let pv ← E.publ
  let ρ ← (roles pv : Option (Fin 3 × Fin 3 × Fin 3))
  f ρ.1 ρ.2.1 ρ.2.2

/-- `TruncAPr::proc` (`arithmetic.cc:1074-1262`); `none` = `SignType::Unknown`. -/
def truncAPr (E : Env σ) (N : ℕ) (sign : Option Sign) (bits : ℕ) (x : Sh (Arr w)) : M σ (Sh (Arr w)) :=
  match sign with
  | some s => pivoted E (truncPrMsbWith E N s bits x)
  | none => pivoted E (truncAPrWith E N bits x)

/-- `TruncAPr2::proc` (`arithmetic.cc:1325-1490`) -/
def truncAPr2 (E : Env σ) (N : ℕ) (bits : ℕ) (x : Sh (Arr w)) : M σ (Sh (Arr w)) :=
  pivoted E (truncAPr2With E N bits x)

end Word

/-! ### Boolean input and output -/

/-- `Aby3Io::makeBitSecret` (`io.cc:92-135`) on one element; `r0 r1` are random bytes. -/
def makeBitSecret (b : Bool) (r0 r1 : BitVec 8) : BShr :=
  let r2 : BitVec 8 := BitVec.ofNat 8 b.toNat - r0 - r1
  let c : Fin 3 → BitVec 8 := ![r0 &&& 1, r1 &&& 1, r2 &&& 1]
  ⟨8, 1, ⟨c, fun i => c (i + 1)⟩⟩

/-- `Aby3Io::fromShares` for boolean shares (`io.cc:165-187`) -/
def fromSharesB {w : ℕ} (b : BShr) : BitVec w :=
  (List.finRange 3).foldl (fun acc i => acc ^^^ (b.sh.fst i).setWidth w) 0

end Spu.Model.Aby3

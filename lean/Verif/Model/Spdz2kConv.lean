import Verif.Model.Circuits
import Verif.Model.Spdz2kBool

set_option autoImplicit false

/-!
Model of the conversions of SPDZ2k that use circuits, `libspu/mpc/spdz2k/conversion.cc`: `AddBB`, `AddBP`, `BitLEBB`,
`BitLTBB`, `A2B` and `MSB`.

The circuits of `mpc/utils/circuits.h` run on `Value`, which has a `SimdTrait`: two gates of one round are packed into one
array by `vmap` (core/vectorize.h, core/value.h:105-155), which fails when the packed shares do not have the same number of
valid bits (`BShrTy::equals`, spdz2k/type.h:69-75).  The back type, which is also compared, is determined by the number of
bits at the time when the share was made and is not modelled; the packed shares went through the same gates with the same
numbers of bits.

The state is the number of `and_bb` invocations so far; `env` gives the triples, masks and coins of each invocation.
-/

namespace Spu.Model.Spdz
open Spu.Model.Circ Spu.Model.Bits

variable {N w : ℕ}

/-- A `Value` of a circuit: a boolean share or a public array. -/
inductive CVal (N w : ℕ) where
  | b (x : BShr N w)
  | p (v : ℕ → ℕ)

/-- What the gates need: sizes (`k` data bits, shape `(r, c)`), the MAC key, the triples, and fresh buffers. -/
structure CEnv (N w : ℕ) where
  k : ℕ
  s : ℕ
  key : Fin (N + 1) → Rg w
  and : ℕ → AndEnv N w
  buf : Fin (N + 1) → ℕ → Rg w × Rg w

variable (E : CEnv N w)

/-- `and_bb` with the next triple. -/
def CEnv.andBB (r c : ℕ) (x y : BShr N w) : M ℕ (BShr N w) := fun q =>
  let e := E.and q
  (Spdz.andBB E.k r c E.s E.key e.a e.b e.t e.mask e.mask' e.pub e.pub' E.buf x y).map fun z => (z, q + 1)

/-- conversion.cc:96-139 `MakeSPDZBasicBlock`; the field of public values has `w` bits. -/
def spdzCBB (r c : ℕ) : CBB ℕ (CVal N w) where
  xor x y := match x, y with
    | .p a, .p b => pure (.p fun i => a i ^^^ b i)
    | .b a, .p b => do let z ← (xorBP E.k r c w E.key E.buf a b : Option (BShr N w)); pure (.b z)
    | .p a, .b b => do let z ← (xorBP E.k r c w E.key E.buf b a : Option (BShr N w)); pure (.b z)
    | .b a, .b b => do let z ← (xorBB E.k r c E.buf b a : Option (BShr N w)); pure (.b z)
  and x y := match x, y with
    | .p a, .p b => pure (.p fun i => a i &&& b i)
    | .b a, .p b => do let z ← (andBP E.k r c w E.buf a b : Option (BShr N w)); pure (.b z)
    | .p a, .b b => do let z ← (andBP E.k r c w E.buf b a : Option (BShr N w)); pure (.b z)
    | .b a, .b b => do let z ← E.andBB r c b a; pure (.b z)
  lshift x bits := match x with
    | .p a => pure (.p fun i => (a i <<< bits) % 2 ^ w)
    | .b a => do let z ← (lshiftB E.k r c bits E.buf a : Option (BShr N w)); pure (.b z)
  rshift x bits := match x with
    | .p a => pure (.p fun i => a i >>> bits)
    | .b a => do let z ← (rshiftB E.k r c bits E.buf a : Option (BShr N w)); pure (.b z)
  initLike _ v := pure (.p fun _ => v.toNat % 2 ^ w)
  setNbits x nb := match x with
    | .p _ => failure
    | .b a => pure (.b ⟨nb, a.st⟩)

/-- value.h:108-135 `SimdTrait<Value>::pack` of two boolean shares of `n` elements, one after the other. -/
def packB (k n : ℕ) (x y : CVal N w) : Option (BShr N w) :=
  match x, y with
  | .b x, .b y =>
    if x.nbits = y.nbits then some ⟨x.nbits, fun i m => if m < n * k then x.st i m else y.st i (m - n * k)⟩ else none
  | _, _ => none

/-- value.h:137-155 `SimdTrait<Value>::unpack` into two arrays of `n` elements. -/
def unpackB (k n : ℕ) (z : BShr N w) : CVal N w × CVal N w :=
  (.b ⟨z.nbits, z.st⟩, .b ⟨z.nbits, fun i m => z.st i (n * k + m)⟩)

/-- `vmap({x0, x1}, {y0, y1}, and)` (core/vectorize.h); the packed arrays have one dimension of `2n` elements. -/
def vand (r c : ℕ) (x y : CVal N w × CVal N w) : M ℕ (CVal N w × CVal N w) := do
  let xs ← (packB E.k (r * c) x.1 x.2 : Option (BShr N w))
  let ys ← (packB E.k (r * c) y.1 y.2 : Option (BShr N w))
  let z ← E.andBB 1 (2 * (r * c)) ys xs
  pure (unpackB E.k (r * c) z)

section
variable {T : Type} (C : CBB ℕ T) (vm : T × T → T × T → M ℕ (T × T))

/-- circuits.h:75-91, a round of `kogge_stone` with `vmap`. -/
def koggeRoundV (PG : T × T) (idx : ℕ) : M ℕ (T × T) := do
  let G1 ← C.lshift PG.2 (2 ^ idx)
  let P1 ← C.lshift PG.1 (2 ^ idx)
  let res ← vm (PG.1, PG.1) (P1, G1)
  let G ← C.xor PG.2 res.2
  pure (res.1, G)

/-- circuits.h:68-96 `kogge_stone`. -/
def koggeStoneV (lhs rhs : T) (nbits : ℕ) : M ℕ T := do
  let P ← C.xor lhs rhs
  let G ← C.and lhs rhs
  let PG ← (List.range (log2Ceil nbits)).foldlM (koggeRoundV C vm) (P, G)
  let cr ← C.lshift PG.2 1
  let s ← C.xor lhs rhs
  C.xor s cr

/-- circuits.h:249-271, the loop of `carry_out`. -/
def carryLoopV (P G : T) (k : ℕ) : M ℕ T :=
  if _h : k > 1 then do
    let PG ← if k % 2 ≠ 0 then do
        let P ← C.lshift P 1
        let G ← C.lshift G 1
        pure (P, G)
      else pure (P, G)
    let k' := if k % 2 ≠ 0 then k + 1 else k
    let P' ← bitSplit C PG.1 k'
    let G' ← bitSplit C PG.2 k'
    let res ← vm (P'.1, G'.1) (P'.2, P'.2)
    let G ← C.xor G'.2 res.2
    carryLoopV res.1 G (k' / 2)
  else pure G
termination_by k
decreasing_by split <;> omega

/-- circuits.h:220-274 `carry_out`. -/
def carryOutV (x y : T) (nbits : ℕ) : M ℕ T := do
  enforce (decide (nbits ≠ 0))
  let P ← C.xor x y
  let G ← C.and x y
  if nbits = 1 then
    let one ← C.initLike G 1
    C.and G one
  else carryLoopV C vm P G nbits

end

/-- `UnwrapValue` of a boolean share. -/
def unwrapB (v : CVal N w) : Option (BShr N w) :=
  match v with
  | .b x => some x
  | .p _ => none

/-- `BShareSwitch2Nbits` followed by `makeBShare`. -/
def widenB (r c : ℕ) (x : BShr N w) (nb : ℕ) : Option (BShr N w) :=
  let (v, m) := switchB E.k r c x nb
  makeB E.k r (c * nb) nb E.buf v m

/-- conversion.cc:447-463 `AddBB`. -/
def addBB (r c : ℕ) (x y : BShr N w) : M ℕ (BShr N w) := do
  let nb := max x.nbits y.nbits
  let x' ← (widenB E r c x nb : Option (BShr N w))
  let y' ← (widenB E r c y nb : Option (BShr N w))
  let z ← koggeStoneV (spdzCBB E r c) (vand E r c) (.b x') (.b y') nb
  (unwrapB z : Option (BShr N w))

/-- conversion.cc:465-477 `AddBP`. -/
def addBP (r c : ℕ) (x : BShr N w) (p : ℕ → ℕ) : M ℕ (BShr N w) := do
  let nb := max x.nbits (maxBitWidth w (r * c) p)
  let x' ← (widenB E r c x nb : Option (BShr N w))
  let z ← koggeStoneV (spdzCBB E r c) (vand E r c) (.b x') (.p p) nb
  (unwrapB z : Option (BShr N w))

/-- conversion.cc:517-535 `BitLEBB`. -/
def bitLE (r c : ℕ) (x y : BShr N w) : M ℕ (BShr N w) := do
  let nb := max x.nbits y.nbits
  let x' ← (widenB E r c x nb : Option (BShr N w))
  let y' ← (widenB E r c y nb : Option (BShr N w))
  let yn ← (notB E.k r c E.key E.buf y' : Option (BShr N w))
  let cr ← carryOutV (spdzCBB E r c) (vand E r c) (.b x') (.b yn) nb
  let ret ← (unwrapB cr : Option (BShr N w))
  (notB E.k r c E.key E.buf ret : Option (BShr N w))

/-- conversion.cc:504-513 `BitLTBB`. -/
def bitLT (r c : ℕ) (x y : BShr N w) : M ℕ (BShr N w) := do
  let res0 ← bitLE E r c x y
  let res1 ← bitLE E r c y x
  let eq ← E.andBB r c res0 res1
  let neq ← (notB E.k r c E.key E.buf eq : Option (BShr N w))
  E.andBB r c neq res0

/-- `BatchOpen(val, mac, k, s)` and `BatchMacCheck` of `n` values. -/
def openRing (n : ℕ) (mask : All N n w × All N n w) (pub : Vec n w) (val mac : Flat N w) : Option (ℕ → Rg w) := do
  let t ← msbOpens E.k E.s E.key mask pub (cut n val) (cut n mac)
  some (ext t)

/-- What `A2B` takes from the environment besides triples: random bits for `A2B` and for `B2A`, masks and coins of the two
openings, and the randomness of `P2B`. -/
structure A2BEnv (N w : ℕ) where
  rb : Flat N w × Flat N w
  rb' : Flat N w × Flat N w
  mask : (n : ℕ) → All N n w × All N n w
  pub : (n : ℕ) → Vec n w
  mask' : (n : ℕ) → All N n w × All N n w
  pub' : (n : ℕ) → Vec n w
  rnd : Flat N w
  rndMac : Flat N w

/-- conversion.cc:214-254 `A2B` of the shares `val` with the MAC shares `mac` of `GetMacShare`. -/
def a2bFull (r c : ℕ) (e : A2BEnv N w) (val mac : Flat N w) : M ℕ (BShr N w) := do
  let b0 ← (a2bit E.k r (c * E.k) E.s E.buf e.rb.1 e.rb.2 : Option (BShr N w))
  let br ← (makeB E.k r (c * E.k) E.k E.buf (getVal E.k r (c * E.k) b0) (getMacB E.k r (c * E.k) b0) : Option (BShr N w))
  let q ← get
  let ar ← (b2a E.k r c E.s E.key (E.and q) E.buf e.rb' br (e.mask _) (e.pub _) : Option (Flat N w × Flat N w))
  set (q + 1)
  let cv ← (openRing E (r * c) (e.mask' _) (e.pub' _) (val - ar.1) (mac - ar.2) : Option (ℕ → Rg w))
  let bc ← (p2b E.k r c w E.key e.rnd e.rndMac E.buf (fun i => (low E.k (cv i)).val) : Option (BShr N w))
  let bc ← (widenB E r c bc E.k : Option (BShr N w))
  addBB E r c br bc

/-- What `MSB` takes from the environment besides triples: `k` arrays of random bits and one more, random bits for `Bit2A`,
masks and coins of the four openings, and the randomness of `P2B`. -/
structure MsbEnv (N w : ℕ) where
  rb : ℕ → Flat N w × Flat N w
  b : Flat N w × Flat N w
  rb' : Flat N w × Flat N w
  mask : ℕ → (n : ℕ) → All N n w × All N n w
  pub : ℕ → (n : ℕ) → Vec n w
  rnd : Flat N w
  rndMac : Flat N w

/-- conversion.cc:355-367 and 387-389: `∑ r_i 2^i`. -/
def sumBits (rb : ℕ → Flat N w × Flat N w) (l : ℕ) : Flat N w × Flat N w :=
  (fun i m => ∑ j ∈ Finset.range l, (rb j).1 i m * 2 ^ j, fun i m => ∑ j ∈ Finset.range l, (rb j).2 i m * 2 ^ j)

/-- conversion.cc:376-405: the shares of each random bit are added into every `(k-1)`-th place of an array of zeros. -/
def gatherBits (r c : ℕ) (rb : ℕ → Flat N w × Flat N w) : Option (Flat N w × Flat N w) :=
  (List.range (E.k - 1)).foldlM (m := Option) (fun acc j => do
    let t ← a2bit E.k r c E.s E.buf (rb j).1 (rb j).2
    let put := fun (old add : Flat N w) (i : Fin (N + 1)) (m : ℕ) =>
      if m % (E.k - 1) = j then old i m + add i (m / (E.k - 1)) else old i m
    some (put acc.1 (getVal E.k r c t), put acc.2 (getMacB E.k r c t))) (0, 0)

/-- conversion.cc:327-445 `MSB`; the first statements open the input itself (`msbOpens`). -/
def msbFull (r c : ℕ) (e : MsbEnv N w) (val mac : Flat N w) : M ℕ (BShr N w) := do
  let _ ← (openRing E (r * c) (e.mask 0 _) (e.pub 0 _) val mac : Option (ℕ → Rg w))
  let rv := sumBits e.rb E.k
  let cv ← (openRing E (r * c) (e.mask 1 _) (e.pub 1 _) (val + rv.1) (mac + rv.2) : Option (ℕ → Rg w))
  let co := fun i => low (E.k - 1) (cv i)
  let bt ← (gatherBits E r c e.rb : Option (Flat N w × Flat N w))
  let ar := sumBits e.rb (E.k - 1)
  let br ← (makeB E.k r (c * (E.k - 1)) (E.k - 1) E.buf bt.1 bt.2 : Option (BShr N w))
  let bc ← (p2b E.k r c w E.key e.rnd e.rndMac E.buf (fun i => (low E.k (co i)).val) : Option (BShr N w))
  let notU ← bitLE E r c br bc
  let bu ← (notB E.k r c E.key E.buf notU : Option (BShr N w))
  let q ← get
  let au ← (bit2a E.k r c E.s E.key (E.and q) E.buf e.rb' (e.mask 2 _) (e.pub 2 _) bu : Option (Flat N w × Flat N w))
  set (q + 1)
  let aa : Flat N w := fun i m => au.1 i m * 2 ^ (E.k - 1) - ar.1 i m + if i = 0 then co m else 0
  let aaMac : Flat N w := fun i m => au.2 i m * 2 ^ (E.k - 1) - ar.2 i m + co m * E.key i
  let ev : Flat N w := fun i m => val i m - aa i m + e.b.1 i m * 2 ^ (E.k - 1)
  let em : Flat N w := fun i m => mac i m - aaMac i m + e.b.2 i m * 2 ^ (E.k - 1)
  let eo ← (openRing E (r * c) (e.mask 3 _) (e.pub 3 _) ev em : Option (ℕ → Rg w))
  let ee := fun m => low 1 (((eo m).val / 2 ^ (E.k - 1) : ℕ) : Rg w)
  (makeB E.k r c 1 E.buf (fun i m => e.b.1 i m - e.b.1 i m * ee m * 2 + if i = 0 then ee m else 0)
    (fun i m => e.b.2 i m - e.b.2 i m * ee m * 2 + ee m * E.key i) : Option (BShr N w))

end Spu.Model.Spdz

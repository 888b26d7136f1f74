import Mathlib.Data.Nat.Size
import Verif.Model.Spdz2kArith

set_option autoImplicit false

/-!
Model of the boolean kernels of SPDZ2k: `libspu/mpc/spdz2k/boolean.cc`, `value.cc`, and of `A2Bit`, `Bit2A`, `B2A` and
the beginning of `MSB` from `conversion.cc`.

A boolean share stores for each element `k` pairs (share, MAC share), one per bit, of which `nbits` are used.  Arrays have a
shape whose last dimension is `c` and whose other dimensions have `r` elements together, and are compact; flattened arrays
are functions of the flat index.  The places of elements follow the strides of `NdArrayRef` (core/shape.cc:32-46,
core/ndarray_ref.cc:118-153), in which a dimension of size one has stride zero.
`none` means that `SPU_ENFORCE` fails or that there is undefined behaviour (division by zero).
-/

namespace Spu.Model.Spdz

/-- A flattened array of each party. -/
abbrev Flat (N w : ℕ) : Type := Fin (N + 1) → ℕ → Rg w

/-- A boolean share: the number of valid bits and the buffer of each party. -/
structure BShr (N w : ℕ) where
  nbits : ℕ
  st : Fin (N + 1) → ℕ → Rg w × Rg w

variable {N w : ℕ}

/-- shape.cc:32-46 `makeCompactStrides`: the stride of the dimension before the last. -/
def rowStride (r c : ℕ) : ℕ := if r = 1 then 0 else c

/-- shape.cc:32-46 `makeCompactStrides`: the stride of the last dimension. -/
def colStride (c : ℕ) : ℕ := if c = 1 then 0 else 1

/-- ndarray_ref.cc:118-153 `can_use_fast_indexing` of a compact array. -/
def fastStride (r c : ℕ) : ℕ := if r = 1 ∧ c = 1 then 0 else 1

/-- A sequence of writes `buf[pos m] = v m`, `m < l`. -/
def writes {α : Type} (pos : ℕ → ℕ) (v : ℕ → α) (l : ℕ) (buf : ℕ → α) : ℕ → α :=
  (List.range l).foldl (fun b m => Function.update b (pos m) (v m)) buf

/-- value.cc:41-77 `makeBShare`; `c` is the last dimension of the arrays `val`, `mac`, and `buf` the fresh buffer. -/
def makeB (k r c nbits : ℕ) (buf : Fin (N + 1) → ℕ → Rg w × Rg w) (val mac : Flat N w) : Option (BShr N w) := do
  guard (nbits ≠ 0)
  guard (c % nbits = 0 ∧ c / nbits ≠ 0)
  guard (nbits ≤ k)
  let f := fastStride r (c / nbits)
  let n := r * (c / nbits)
  some ⟨nbits, fun i =>
    let z := writes (fun m => f * m) (fun _ => (0, 0)) (n * k) (buf i)
    writes (fun m => f * (m / nbits * k + m % nbits)) (fun m => (val i m, mac i m)) (n * nbits) z⟩

/-- value.cc:79-123 `getShare`: the pair at the flat index `m` of the bits; `c` is the last dimension of the share. -/
def getPair (k r c : ℕ) (x : BShr N w) (i : Fin (N + 1)) (m : ℕ) : Rg w × Rg w :=
  if x.nbits = k then x.st i (m / (c * k) * (rowStride r c * k) + m % (c * k) * colStride c)
  else x.st i (fastStride r c * (m / x.nbits * k + m % x.nbits))

/-- value.cc:125 `getValueShare`. -/
def getVal (k r c : ℕ) (x : BShr N w) : Flat N w := fun i m => (getPair k r c x i m).1

/-- value.cc:127 `getMacShare`. -/
def getMacB (k r c : ℕ) (x : BShr N w) : Flat N w := fun i m => (getPair k r c x i m).2

/-- value.cc:167-203 `BShareSwitch2Nbits`. -/
def switchB (k r c : ℕ) (x : BShr N w) (nb : ℕ) : Flat N w × Flat N w :=
  if x.nbits = nb then (getVal k r c x, getMacB k r c x)
  else
    (fun i m => if m % nb < min x.nbits nb then getVal k r c x i (m / nb * x.nbits + m % nb) else 0,
      fun i m => if m % nb < min x.nbits nb then getMacB k r c x i (m / nb * x.nbits + m % nb) else 0)

/-- ndarray_ref.h:456-480 `maxBitWidth` of `n` elements of a field with `pf` bits. -/
def maxBitWidth (pf n : ℕ) (p : ℕ → ℕ) : ℕ := if n = 0 then pf else (Finset.range n).sup fun i => Nat.size (p i)

/-- boolean.cc:36-70 `P2Value`: the number of bits, and the bits. -/
def p2Value (k pf n : ℕ) (p : ℕ → ℕ) (nb : ℕ) : ℕ × (ℕ → Rg w) :=
  let v := if nb = 0 then min k (maxBitWidth pf n p) else if nb < k then nb else k
  (v, fun m => ((p (m / v) / 2 ^ (m % v) % 2 : ℕ) : Rg w))

/-- boolean.cc:297-326 `P2B`. -/
def p2b (k r c pf : ℕ) (key : Fin (N + 1) → Rg w) (rnd rndMac : Flat N w) (buf : Fin (N + 1) → ℕ → Rg w × Rg w) (p : ℕ → ℕ) :
    Option (BShr N w) := do
  let (v, b) := p2Value k pf (r * c) p 0
  guard (r * c ≠ 0)
  makeB k r (c * v) (r * (c * v) / (r * c)) buf
    (fun i m => (if i = 0 then b m else 0) + (rnd i m - rnd (i + 1) m))
    (fun i m => b m * key i + (rndMac i m - rndMac (i + 1) m))

/-- The first `n` entries. -/
def cut (n : ℕ) (x : Flat N w) : All N n w := fun i j => x i j

/-- The array with the given entries. -/
def ext {n : ℕ} (t : Vec n w) : ℕ → Rg w := fun m => if h : m < n then t ⟨m, h⟩ else 0

/-- `BatchOpen(x, mac, 1, s)`, `BatchMacCheck` and the least significant bit of the result, of `n` bits. -/
def openBits (s n : ℕ) (key : Fin (N + 1) → Rg w) (mask : All N n w × All N n w) (pub : Vec n w) (val mac : Flat N w) :
    Option (ℕ → Rg w) := do
  let (t, m) := batchOpen 1 (cut n val) (cut n mac) mask 0
  guard (macCheck 1 s pub key t m = true)
  some fun j => low 1 (ext t j)

/-- boolean.cc:256-295 `B2P`: `t |= (value & 1) << j`. -/
def b2p (k r c s : ℕ) (key : Fin (N + 1) → Rg w) (x : BShr N w) (mask : All N (r * c * x.nbits) w × All N (r * c * x.nbits) w)
    (pub : Vec (r * c * x.nbits) w) : Option (ℕ → ℕ) := do
  let t ← openBits s (r * c * x.nbits) key mask pub (getVal k r c x) (getMacB k r c x)
  some fun i => (List.range x.nbits).foldl (fun acc j => acc ||| (t (i * x.nbits + j)).val <<< j) 0

/-- boolean.cc:328-356 `NotB`. -/
def notB (k r c : ℕ) (key : Fin (N + 1) → Rg w) (buf : Fin (N + 1) → ℕ → Rg w × Rg w) (x : BShr N w) : Option (BShr N w) :=
  makeB k r (c * x.nbits) x.nbits buf (fun i m => getVal k r c x i m + if i = 0 then 1 else 0)
    (fun i m => 1 * key i + getMacB k r c x i m)

/-- boolean.cc:358-389 `BitrevB`. -/
def bitrevB (k r c start stop : ℕ) (buf : Fin (N + 1) → ℕ → Rg w × Rg w) (x : BShr N w) : Option (BShr N w) := do
  guard (start ≤ stop)
  guard (stop ≤ x.nbits)
  let src := fun m => let j := m % x.nbits
    if start ≤ j ∧ j < stop then m / x.nbits * x.nbits + stop + start - j - 1 else m
  makeB k r (c * x.nbits) x.nbits buf (fun i m => getVal k r c x i (src m)) (fun i m => getMacB k r c x i (src m))

/-- boolean.cc:391-409 `XorBB`. -/
def xorBB (k r c : ℕ) (buf : Fin (N + 1) → ℕ → Rg w × Rg w) (x y : BShr N w) : Option (BShr N w) :=
  let nb := max x.nbits y.nbits
  let (xv, xm) := switchB k r c x nb
  let (yv, ym) := switchB k r c y nb
  makeB k r (c * nb) nb buf (xv + yv) (xm + ym)

/-- boolean.cc:411-439 `XorBP`; `ring_add_` checks the shapes. -/
def xorBP (k r c pf : ℕ) (key : Fin (N + 1) → Rg w) (buf : Fin (N + 1) → ℕ → Rg w × Rg w) (x : BShr N w) (p : ℕ → ℕ) :
    Option (BShr N w) := do
  let nb := max x.nbits (maxBitWidth pf (r * c) p)
  let (xv, xm) := switchB k r c x nb
  let (v, b) := p2Value k pf (r * c) p nb
  guard (v = nb)
  makeB k r (c * nb) nb buf (fun i m => xv i m + if i = 0 then b m else 0) (fun i m => b m * key i + xm i m)

/-- boolean.cc:441-492 `AndBB`; the dealt triple and the masks and coins of the openings are given for each number of bits. -/
def andBB (k r c s : ℕ) (key : Fin (N + 1) → Rg w) (a b t : Flat N w × Flat N w)
    (mask mask' : (n : ℕ) → All N n w × All N n w) (pub pub' : (n : ℕ) → Vec n w) (buf : Fin (N + 1) → ℕ → Rg w × Rg w)
    (x y : BShr N w) : Option (BShr N w) := do
  let nb := min x.nbits y.nbits
  let (xv, xm) := switchB k r c x nb
  let (yv, ym) := switchB k r c y nb
  let n := r * c * nb
  let pe ← openBits s n key (mask n) (pub n) (xv - a.1) (xm - a.2)
  let pf ← openBits s n key (mask' n) (pub' n) (yv - b.1) (ym - b.2)
  makeB k r (c * nb) nb buf
    (fun i m => pe m * b.1 i m + pf m * a.1 i m + t.1 i m + if i = 0 then pe m * pf m else 0)
    (fun i m => pe m * b.2 i m + pf m * a.2 i m + t.2 i m + pe m * pf m * key i)

/-- boolean.cc:494-517 `AndBP`. -/
def andBP (k r c pf : ℕ) (buf : Fin (N + 1) → ℕ → Rg w × Rg w) (x : BShr N w) (p : ℕ → ℕ) : Option (BShr N w) := do
  let nb := min x.nbits (maxBitWidth pf (r * c) p)
  let (xv, xm) := switchB k r c x nb
  let (v, b) := p2Value k pf (r * c) p nb
  guard (r * c * nb = r * c * v)
  makeB k r (c * nb) nb buf (fun i m => xv i m * b m) (fun i m => xm i m * b m)

/-- boolean.cc:519-536 `LShiftB` with 196-244 `LShiftBImpl`. -/
def lshiftB (k r c bits : ℕ) (buf : Fin (N + 1) → ℕ → Rg w × Rg w) (x : BShr N w) : Option (BShr N w) :=
  let res := if bits ≥ k then 1 else if x.nbits + bits > k then k else x.nbits + bits
  if bits = 0 then makeB k r (c * x.nbits) res buf (getVal k r c x) (getMacB k r c x)
  else if bits ≥ k then makeB k r c res buf 0 0
  else
    let nb := if x.nbits + bits > k then k else x.nbits + bits
    let pick := fun (y : Flat N w) (i : Fin (N + 1)) (m : ℕ) =>
      if bits ≤ m % nb then y i (m / nb * x.nbits + (m % nb - bits)) else 0
    makeB k r (c * nb) res buf (pick (getVal k r c x)) (pick (getMacB k r c x))

/-- boolean.cc:538-549 `RShiftB` with 73-121 `RShiftBImpl`. -/
def rshiftB (k r c bits : ℕ) (buf : Fin (N + 1) → ℕ → Rg w × Rg w) (x : BShr N w) : Option (BShr N w) :=
  let res := if x.nbits > bits then x.nbits - bits else 1
  if bits = 0 then makeB k r (c * x.nbits) res buf (getVal k r c x) (getMacB k r c x)
  else if x.nbits ≤ bits then makeB k r c res buf 0 0
  else
    let nb := x.nbits - bits
    let pick := fun (y : Flat N w) (i : Fin (N + 1)) (m : ℕ) => y i (m / nb * x.nbits + bits + m % nb)
    makeB k r (c * nb) res buf (pick (getVal k r c x)) (pick (getMacB k r c x))

/-- boolean.cc:556-572 `ARShiftB` with 124-193 `ARShiftBImpl`. -/
def arshiftB (k r c bits : ℕ) (buf : Fin (N + 1) → ℕ → Rg w × Rg w) (x : BShr N w) : Option (BShr N w) :=
  if x.nbits ≠ k then rshiftB k r c bits buf x
  else if bits = 0 then makeB k r (c * x.nbits) k buf (getVal k r c x) (getMacB k r c x)
  else
    let o1 := if bits < x.nbits then bits else x.nbits
    let o2 := if bits < x.nbits then x.nbits - bits else 0
    let pick := fun (y : Flat N w) (i : Fin (N + 1)) (m : ℕ) =>
      let (e, j) := (m / x.nbits, m % x.nbits)
      if j < o2 then y i (e * x.nbits + o1 + j) else y i ((e + 1) * x.nbits - 1)
    makeB k r (c * x.nbits) k buf (pick (getVal k r c x)) (pick (getMacB k r c x))

/-! ## Conversions -/

/-- conversion.cc:141-156 `A2Bit`, with the MAC shares of `GetMacShare`. -/
def a2bit (k r c s : ℕ) (buf : Fin (N + 1) → ℕ → Rg w × Rg w) (val mac : Flat N w) : Option (BShr N w) :=
  makeB k r c 1 buf (fun i m => low (s + 1) (val i m)) (fun i m => low (s + 1) (mac i m))

/-- What an invocation of `AndBB` takes from the environment. -/
structure AndEnv (N w : ℕ) where
  a : Flat N w × Flat N w
  b : Flat N w × Flat N w
  t : Flat N w × Flat N w
  mask : (n : ℕ) → All N n w × All N n w
  mask' : (n : ℕ) → All N n w × All N n w
  pub : (n : ℕ) → Vec n w
  pub' : (n : ℕ) → Vec n w

/-- conversion.cc:447-463 `AddBB` for shares of one bit: `kogge_stone` (circuits.h:69-96) has no rounds. -/
def addBit (k r c s : ℕ) (key : Fin (N + 1) → Rg w) (env : AndEnv N w) (buf : Fin (N + 1) → ℕ → Rg w × Rg w)
    (x y : BShr N w) : Option (BShr N w) := do
  let _ ← xorBB k r c buf x y
  let g ← andBB k r c s key env.a env.b env.t env.mask env.mask' env.pub env.pub' buf x y
  let cr ← lshiftB k r c 1 buf g
  let p ← xorBB k r c buf x y
  xorBB k r c buf p cr

/-- conversion.cc:158-215 `Bit2A` and 256-325 `B2A` up to the shifts: from bits with value and MAC shares `val`, `mac` of
shape `(r, c)` and random bits `rb`, the arithmetic shares `c + r - 2cr`. -/
def bitToA (k r c s : ℕ) (key : Fin (N + 1) → Rg w) (env : AndEnv N w) (buf : Fin (N + 1) → ℕ → Rg w × Rg w)
    (rb : Flat N w × Flat N w) (mask : All N (r * c) w × All N (r * c) w) (pub : Vec (r * c) w) (val mac : Flat N w) :
    Option (Flat N w × Flat N w) := do
  let x ← makeB k r c 1 buf val mac
  let br ← a2bit k r c s buf rb.1 rb.2
  let bc ← addBit k r c s key env buf x br
  let (bv, bm) := switchB k r c bc 1
  let o ← openBits s (r * c) key mask pub bv bm
  some (fun i m => rb.1 i m - 2 * o m * rb.1 i m + if i = 0 then o m else 0,
    fun i m => o m * key i + rb.2 i m - 2 * o m * rb.2 i m)

/-- conversion.cc:158-215 `Bit2A`. -/
def bit2a (k r c s : ℕ) (key : Fin (N + 1) → Rg w) (env : AndEnv N w) (buf : Fin (N + 1) → ℕ → Rg w × Rg w)
    (rb : Flat N w × Flat N w) (mask : All N (r * c) w × All N (r * c) w) (pub : Vec (r * c) w) (x : BShr N w) :
    Option (Flat N w × Flat N w) :=
  let (v, m) := switchB k r c x 1
  bitToA k r c s key env buf rb mask pub v m

/-- conversion.cc:256-325 `B2A`. -/
def b2a (k r c s : ℕ) (key : Fin (N + 1) → Rg w) (env : AndEnv N w) (buf : Fin (N + 1) → ℕ → Rg w × Rg w)
    (rb : Flat N w × Flat N w) (x : BShr N w) (mask : All N (r * (c * x.nbits)) w × All N (r * (c * x.nbits)) w)
    (pub : Vec (r * (c * x.nbits)) w) : Option (Flat N w × Flat N w) := do
  let e ← bitToA k r (c * x.nbits) s key env buf rb mask pub (getVal k r c x) (getMacB k r c x)
  some (fun i m => ∑ j ∈ Finset.range x.nbits, e.1 i (m * x.nbits + j) * 2 ^ j,
    fun i m => ∑ j ∈ Finset.range x.nbits, e.2 i (m * x.nbits + j) * 2 ^ j)

/-- conversion.cc:346-347, the first two statements of `MSB`: what all parties see. -/
def msbOpens {n : ℕ} (k s : ℕ) (key : Fin (N + 1) → Rg w) (mask : All N n w × All N n w) (pub : Vec n w)
    (val mac : All N n w) : Option (Vec n w) := do
  let (t, m) := batchOpen k val mac mask 0
  guard (macCheck k s pub key t m = true)
  some t

end Spu.Model.Spdz

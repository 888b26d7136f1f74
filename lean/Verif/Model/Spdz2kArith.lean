import Mathlib.Data.Matrix.Mul
import Verif.Model.Spdz2kMac

set_option autoImplicit false

/-!
Model of the arithmetic kernels of SPDZ2k: `libspu/mpc/spdz2k/arithmetic.cc`, `io.cc`, and of the trusted first party that
deals their randomness, `beaver/beaver_tfp.cc`, `beaver/trusted_party.cc`.

There are `N + 1` parties with ranks in `Fin (N + 1)`; arrays are flattened to `n` elements of the runtime ring of `w` bits.
A kernel is a function of the data of all parties; `none` means that `SPU_ENFORCE` fails or that a shift is undefined.
Pseudo-random values are parameters.  `allReduce` of the kernels takes an additional summand: what dishonest parties add
to the sum (0 in an honest run).
-/

namespace Spu.Model.Spdz

/-- An array in the runtime ring. -/
abbrev Vec (n w : ℕ) : Type := Fin n → Rg w

/-- An array of each party. -/
abbrev All (N n w : ℕ) : Type := Fin (N + 1) → Vec n w

/-- `AShrTy` (type.h:22-41): value and MAC shares, and the flag `has_mac_`. -/
structure AShr (N n w : ℕ) where
  val : All N n w
  mac : All N n w
  hasMac : Bool

variable {N n w : ℕ}

/-- `if (comm->getRank() == p) ring_add_(…, v)`. -/
def onlyAt (p : Fin (N + 1)) (v : Vec n w) : All N n w := fun i => if i = p then v else 0

/-- `ring_sub(r0, r1)` of `genPrssPair` (prg_state.cc): the own random array minus the next party's. -/
def prssZero (r : All N n w) : All N n w := fun i => r i - r (i + 1)

/-- trusted_party.cc, e.g. 116: the first party changes its share such that all shares sum up to `t`. -/
def adjust (sh : All N n w) (t : Vec n w) : All N n w := sh + onlyAt 0 (t - ∑ i, sh i)

/-- The pairs dealt by the trusted party: shares of `t` and of its MAC
(trusted_party.cc:107-267, one array of `adjustAuthCoinTossing`, `adjustAuthRandBit`, `adjustAuthMul`, `adjustAuthAnd`,
`adjustAuthTrunc`); `gk` is the global key. -/
def deal (gk : Rg w) (sh shMac : All N n w) (t : Vec n w) : All N n w × All N n w :=
  (adjust sh t, adjust shMac fun j => t j * gk)

/-- beaver_tfp.cc:47-66 `InitSpdzKey` with trusted_party.cc:100-105. -/
def initKey (s : ℕ) (rnd : Rg w) (sh : Fin (N + 1) → Rg w) : Rg w × (Fin (N + 1) → Rg w) :=
  let gk := low s rnd
  (gk, fun i => if i = 0 then sh i + (gk - ∑ i, sh i) else sh i)

/-- trusted_party.cc:107-126 `adjustAuthCoinTossing`. -/
def dealCoin (k : ℕ) (gk : Rg w) (sh shMac : All N n w) (rnd : Vec n w) : All N n w × All N n w :=
  deal gk sh shMac fun j => low k (rnd j)

/-- trusted_party.cc:128-147 `adjustAuthRandBit`. -/
def dealBit (gk : Rg w) (sh shMac : All N n w) (rnd : Vec n w) : All N n w × All N n w :=
  deal gk sh shMac fun j => low 1 (rnd j)

/-- trusted_party.cc:149-176 `adjustAuthMul`, 207-234 `adjustAuthAnd`: the shares of the factors are not adjusted. -/
def dealMul (gk : Rg w) (a b c aMac bMac cMac : All N n w) : (All N n w × All N n w) × (All N n w × All N n w) ×
    (All N n w × All N n w) :=
  ((a, adjust aMac fun j => (∑ i, a i) j * gk), (b, adjust bMac fun j => (∑ i, b i) j * gk),
    deal gk c cMac fun j => (∑ i, a i) j * (∑ i, b i) j)

/-- The value of a ring element in two's complement. -/
def sgn (x : Rg w) : ℤ := if x.val < 2 ^ (w - 1) then x.val else x.val - 2 ^ w

/-- `ring_arshift` (ring_ops.cc). -/
def arshift (m : ℕ) (x : Rg w) : Rg w := ((sgn x / 2 ^ m : ℤ) : Rg w)

/-- arithmetic.cc:607-611, trusted_party.cc:250-255: truncation of the last `k` bits taken as a signed number. -/
def trShift (k bits : ℕ) (x : Rg w) : Rg w := low k (arshift (w - k + bits) (x * 2 ^ (w - k)))

/-- trusted_party.cc:236-267 `adjustAuthTrunc`. -/
def dealTrunc (k bits : ℕ) (gk : Rg w) (a b aMac bMac : All N n w) : (All N n w × All N n w) × (All N n w × All N n w) :=
  let r : Vec n w := fun j => low k ((∑ i, a i) j)
  (deal gk a aMac r, deal gk b bMac fun j => trShift k bits (r j))

/-- beaver_tfp.cc:69-80 `AuthArrayRef`: MAC shares for shares without MAC, from a dealt coin. -/
def authArray (gk : Rg w) (coin : All N n w × All N n w) (value : All N n w) : All N n w :=
  coin.2 + onlyAt 0 fun j => (∑ i, (value i j - coin.1 i j)) * gk

/-- arithmetic.cc:78-93 `GetMacShare`. -/
def getMac (gk : Rg w) (coin : All N n w × All N n w) (x : AShr N n w) : All N n w :=
  if x.hasMac then x.mac else authArray gk coin x.val

/-- arithmetic.cc:63-75 `zero_a_impl`. -/
def zeroA (r rMac : All N n w) : AShr N n w := ⟨prssZero r, prssZero rMac, true⟩

/-- arithmetic.cc:115-132 `P2A`, after `CastRing`. -/
def p2a (key : Fin (N + 1) → Rg w) (r rMac : All N n w) (p : Vec n w) : AShr N n w :=
  let z := zeroA r rMac
  ⟨z.val + onlyAt 0 p, z.mac + fun i j => p j * key i, true⟩

/-- arithmetic.cc:192-213 `V2A`. -/
def v2a (gk : Rg w) (coin : All N n w × All N n w) (r rMac : All N n w) (owner : Fin (N + 1)) (v : Vec n w) : AShr N n w :=
  let z := zeroA r rMac
  let val := z.val + onlyAt owner v
  ⟨val, z.mac + authArray gk coin val, true⟩

/-- arithmetic.cc:95-113 `RandA`: each party's share is its private random array shifted by 2. -/
def randA (gk : Rg w) (coin : All N n w × All N n w) (rnd : All N n w) : AShr N n w :=
  let x : All N n w := fun i j => ((rnd i j).val / 2 ^ 2 : ℕ)
  ⟨x, authArray gk coin x, true⟩

/-- arithmetic.cc:215-227 `NegateA`. -/
def negateA (gk : Rg w) (coin : All N n w × All N n w) (x : AShr N n w) : AShr N n w :=
  ⟨-x.val, -getMac gk coin x, true⟩

/-- arithmetic.cc:232-252 `AddAP`. -/
def addAP (gk : Rg w) (key : Fin (N + 1) → Rg w) (coin : All N n w × All N n w) (x : AShr N n w) (p : Vec n w) : AShr N n w :=
  ⟨x.val + onlyAt 0 p, getMac gk coin x + fun i j => p j * key i, true⟩

/-- arithmetic.cc:254-272 `AddAA`. -/
def addAA (gk : Rg w) (coin coin' : All N n w × All N n w) (x y : AShr N n w) : AShr N n w :=
  ⟨x.val + y.val, getMac gk coin x + getMac gk coin' y, true⟩

/-- arithmetic.cc:433-447 `MulAP`. -/
def mulAP (gk : Rg w) (coin : All N n w × All N n w) (x : AShr N n w) (p : Vec n w) : AShr N n w :=
  ⟨fun i j => x.val i j * p j, fun i j => getMac gk coin x i j * p j, true⟩

/-- arithmetic.cc:571-583 `LShiftA`. -/
def lshiftA (gk : Rg w) (coin : All N n w × All N n w) (x : AShr N n w) (bits : ℕ) : AShr N n w :=
  ⟨fun i j => x.val i j * 2 ^ bits, fun i j => getMac gk coin x i j * 2 ^ bits, true⟩

/-- `BatchOpen`: the opened values, to which `err` was added, and the MAC shares of the masked values. -/
def batchOpen (k : ℕ) (val mac : All N n w) (mask : All N n w × All N n w) (err : Vec n w) : Vec n w × All N n w :=
  let sh := fun i => maskShare k (val i) (mac i) (mask.1 i) (mask.2 i)
  (opened (fun i => (sh i).1) + err, fun i => (sh i).2)

/-- `BatchMacCheck`. -/
def macCheck (k s : ℕ) (pub : Vec n w) (key : Fin (N + 1) → Rg w) (o : Vec n w) (mac : All N n w) : Bool :=
  verdict (k + s) ((List.finRange (N + 1)).map fun i => zShare s pub o (mac i) (key i))

/-- arithmetic.cc:134-151 `A2P`: note `getMacShare`, which ignores `has_mac_`. -/
def a2p (k s : ℕ) (key : Fin (N + 1) → Rg w) (mask : All N n w × All N n w) (pub : Vec n w) (x : AShr N n w) :
    Option (Fin n → ZMod (2 ^ k)) := do
  let (t, m) := batchOpen k x.val x.mac mask 0
  guard (macCheck k s pub key t m = true)
  some fun j => ((low k (t j)).val : ZMod (2 ^ k))

/-- arithmetic.cc:153-190 `A2V`: what the party `rank` obtains; `rnd` is its random array. -/
def a2v (k s : ℕ) (gk : Rg w) (key : Fin (N + 1) → Rg w) (coin mask : All N n w × All N n w) (pub : Vec n w)
    (r rMac : All N n w) (rank : Fin (N + 1)) (rnd : Vec n w) (x : AShr N n w) : Option (Fin n → ZMod (2 ^ k)) := do
  let z := v2a gk coin r rMac rank rnd
  let (t, m) := batchOpen k (x.val + z.val) (x.mac + z.mac) mask 0
  guard (macCheck k s pub key t m = true)
  some fun j => ((low k (t j - rnd j)).val : ZMod (2 ^ k))

/-- arithmetic.cc:455-510 `MulAA`; the two openings are not masked. -/
def mulAA (k s : ℕ) (gk : Rg w) (key : Fin (N + 1) → Rg w) (coin coin' : All N n w × All N n w) (pub pub' : Vec n w)
    (a b c : All N n w × All N n w) (errE errF : Vec n w) (x y : AShr N n w) : Option (AShr N n w) := do
  let xm := getMac gk coin x
  let ym := getMac gk coin' y
  let pe := opened (x.val - a.1) + errE
  let pf := opened (y.val - b.1) + errF
  guard (macCheck k s pub key pe (xm - a.2) = true)
  guard (macCheck k s pub' key pf (ym - b.2) = true)
  some ⟨(fun i j => pe j * b.1 i j + pf j * a.1 i j + c.1 i j) + onlyAt 0 (pe * pf),
    fun i j => pe j * b.2 i j + pf j * a.2 i j + c.2 i j + pe j * pf j * key i, true⟩

/-- arithmetic.cc:587-625 `TruncA`: note `getMacShare`, which ignores `has_mac_`. -/
def truncA (k s bits : ℕ) (key : Fin (N + 1) → Rg w) (mask : All N n w × All N n w) (pub : Vec n w)
    (r rb : All N n w × All N n w) (x : AShr N n w) : Option (AShr N n w) := do
  let (t, m) := batchOpen k (x.val - r.1) (x.mac - r.2) mask 0
  guard (macCheck k s pub key t m = true)
  guard (w - k + bits < w)
  let d : Vec n w := fun j => trShift k bits (t j)
  some ⟨rb.1 + onlyAt 0 d, rb.2 + fun i j => d j * key i, true⟩

/-! ## Matrices -/

/-- A matrix of each party, and its MAC shares. -/
structure MShr (N a b w : ℕ) where
  val : Fin (N + 1) → Matrix (Fin a) (Fin b) (Rg w)
  mac : Fin (N + 1) → Matrix (Fin a) (Fin b) (Rg w)

variable {a b c : ℕ}

/-- arithmetic.cc:515-528 `MatMulAP`, with the MAC shares given. -/
def matMulAP (x : MShr N a b w) (p : Matrix (Fin b) (Fin c) (Rg w)) : MShr N a c w :=
  ⟨fun i => x.val i * p, fun i => x.mac i * p⟩

/-- trusted_party.cc:178-205 `adjustAuthDot`: the dealt triple. -/
def dealDot (gk : Rg w) (A : MShr N a b w) (B : MShr N b c w) (C : MShr N a c w) : MShr N a b w × MShr N b c w × MShr N a c w :=
  let sa := ∑ i, A.val i
  let sb := ∑ i, B.val i
  (⟨A.val, fun i => if i = 0 then A.mac i + (gk • sa - ∑ i, A.mac i) else A.mac i⟩,
    ⟨B.val, fun i => if i = 0 then B.mac i + (gk • sb - ∑ i, B.mac i) else B.mac i⟩,
    ⟨fun i => if i = 0 then C.val i + (sa * sb - ∑ i, C.val i) else C.val i,
      fun i => if i = 0 then C.mac i + (gk • (sa * sb) - ∑ i, C.mac i) else C.mac i⟩)

/-- arithmetic.cc:530-569 `MatMulAA`: the MACs of the factors are not used and nothing is checked. -/
def matMulAA (key : Fin (N + 1) → Rg w) (A : MShr N a b w) (B : MShr N b c w) (C : MShr N a c w)
    (errE : Matrix (Fin a) (Fin b) (Rg w)) (errF : Matrix (Fin b) (Fin c) (Rg w)) (x : MShr N a b w) (y : MShr N b c w) :
    MShr N a c w :=
  let pe := ∑ i, (x.val i - A.val i) + errE
  let pf := ∑ i, (y.val i - B.val i) + errF
  ⟨fun i => pe * B.val i + A.val i * pf + C.val i + if i = 0 then pe * pf else 0,
    fun i => pe * B.mac i + A.mac i * pf + C.mac i + key i • (pe * pf)⟩

/-- The array of a matrix in row-major order. -/
def flat (x : MShr N a b w) : AShr N (a * b) w :=
  ⟨fun i j => x.val i (finProdFinEquiv.symm j).1 (finProdFinEquiv.symm j).2,
    fun i j => x.mac i (finProdFinEquiv.symm j).1 (finProdFinEquiv.symm j).2, true⟩

/-! ## Input and output -/

/-- io.cc:47-86 `Spdz2kIo::toShares` of secrets: additive shares, no MACs; `rnd` are the shares of all parties but the first. -/
def toShares (raw : Fin n → ℕ) (rnd : All N n w) : AShr N n w :=
  ⟨fun i j => if i = 0 then (raw j : Rg w) - ∑ p, (if p = 0 then 0 else rnd p j) else rnd i j, 0, false⟩

/-- io.cc:88-128 `fromShares` of arithmetic shares. -/
def fromShares (k : ℕ) (x : AShr N n w) : Fin n → ZMod (2 ^ k) := fun j => ((low k (∑ i, x.val i j)).val : ZMod (2 ^ k))

end Spu.Model.Spdz

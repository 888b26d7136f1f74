import Mathlib.Data.ZMod.Basic
import Mathlib.Algebra.BigOperators.Fin

set_option autoImplicit false

/-!
Model of authenticated openings in SPDZ2k: `libspu/mpc/spdz2k/beaver/beaver_tfp.cc`, `beaver_tinyot.cc` (`BatchOpen`,
`BatchMacCheck`) and `libspu/mpc/spdz2k/commitment.cc`.

Ring elements of a field with `w` bits are elements of `ZMod (2^w)`.  The functions are those of one party; what it
receives is a parameter, so the other parties may behave in any way.  Byte strings are lists.
-/

namespace Spu.Model.Spdz

/-- The ring of a field with `w` bits. -/
abbrev Rg (w : ℕ) : Type := ZMod (2 ^ w)

/-- `ring_bitmask(x, 0, m)` (ring_ops.cc). -/
def low {w : ℕ} (m : ℕ) (x : Rg w) : Rg w := ((x.val % 2 ^ m : ℕ) : Rg w)

/-- `ring_mmul` of a row with a column. -/
def dot {w n : ℕ} (a b : Fin n → Rg w) : Rg w := ∑ j, a j * b j

/-- beaver_tfp.cc:251-270, beaver_tinyot.cc:744-766 `BatchOpen`: a party's shares of the masked value and of its MAC. -/
def maskShare {w n : ℕ} (k : ℕ) (value mac rVal rMac : Fin n → Rg w) : (Fin n → Rg w) × (Fin n → Rg w) :=
  (fun j => value j + 2 ^ k * rVal j, fun j => mac j + 2 ^ k * rMac j)

/-- `allReduce(ADD)` (communicator.cc): the sum of the shares. -/
def opened {ι : Type} [Fintype ι] {w n : ℕ} (sh : ι → Fin n → Rg w) : Fin n → Rg w := fun j => ∑ i, sh i j

/-- beaver_tfp.cc:288-298, beaver_tinyot.cc:697-707: a party's part of the check, from the public coins. -/
def zShare {w n : ℕ} (s : ℕ) (pub : Fin n → Rg w) (val mac : Fin n → Rg w) (key : Rg w) : Rg w :=
  let coef := fun j => low s (pub j)
  dot coef mac - dot coef val * key

/-- beaver_tfp.cc:313-327, beaver_tinyot.cc:715-731: the verdict from the parts of all parties. -/
def verdict {w : ℕ} (macBits : ℕ) (zs : List (Rg w)) : Bool :=
  let z := zs.sum
  let z := if macBits ≠ 0 then low macBits z else z
  z = 0

/-- beaver_tfp.cc:220-233, beaver_tinyot.cc `genPublCoin`: the public seed, a `uint128_t`, from the opened seeds. -/
def publicSeed (seeds : List (ZMod (2 ^ 128))) : ZMod (2 ^ 128) := seeds.foldl (· + ·) 0

/-- Byte strings. -/
abbrev Bytes := List ℕ

/-- commitment.cc:25-46 `commit`, with the hash function as a parameter; `rankStr` is `std::to_string`. -/
def commit (hash : Bytes → Bytes) (rankStr : ℕ → Bytes) (sender : ℕ) (msg r : Bytes) : Bytes :=
  hash (rankStr sender ++ msg ++ r)

/-- commitment.cc:67-87: what a party makes of the received commitments and openings; own message `z`, 16 bytes of
randomness, `none` when an opening is too short (`substr` throws). -/
def collect (hash : Bytes → Bytes) (rankStr : ℕ → Bytes) (rank : ℕ) (z : Bytes) (cmts opens : ℕ → Bytes) :
    ℕ → Option (Bool × List Bytes)
  | 0 => some (true, [])
  | i + 1 => do
    let (res, zs) ← collect hash rankStr rank z cmts opens i
    if i = rank then some (res, zs ++ [z]) else do
      guard (z.length ≤ (opens i).length)
      let zi := (opens i).take z.length
      let ri := ((opens i).drop z.length).take 16
      some (res && (commit hash rankStr i zi ri == cmts i), zs ++ [zi])

end Spu.Model.Spdz

import Mathlib.Data.Nat.Bitwise
import Verif.Spec.Spdz2kArith

set_option autoImplicit false

/-!
Specification of boolean shares in SPDZ2k: each bit is the least significant bit of a value that is shared with a MAC
modulo `2^(s+1)`.
-/

namespace Spu.Spec.Spdz

/-- Shares of the bit `b` with MAC shares. -/
def AuthBit {ι : Type} [Fintype ι] {w : ℕ} (s : ℕ) (key : ι → ZMod (2 ^ w)) (b : Bool) (val mac : ι → ZMod (2 ^ w)) : Prop :=
  ∃ v : ZMod (2 ^ w), v.val % 2 = b.toNat ∧ Auth (s + 1) key v val mac

/-- The buffers `st` hold shares of the numbers `B 0, …, B (n - 1)` of at most `nb` bits, each in `k` places. -/
structure BitShares {ι : Type} [Fintype ι] {w : ℕ} (n k s : ℕ) (key : ι → ZMod (2 ^ w)) (nb : ℕ)
    (st : ι → ℕ → ZMod (2 ^ w) × ZMod (2 ^ w)) (B : ℕ → ℕ) : Prop where
  pos : 0 < nb
  le : nb ≤ k
  small : ∀ i < n, B i < 2 ^ nb
  bit : ∀ i < n, ∀ j < k, AuthBit s key ((B i).testBit j) (fun p => (st p (i * k + j)).1) (fun p => (st p (i * k + j)).2)

/-- Authenticated shares of the values `X 0, …, X (n - 1)` modulo `2^m`. -/
def AuthFlat {ι : Type} [Fintype ι] {w : ℕ} (m n : ℕ) (key : ι → ZMod (2 ^ w)) (X : ℕ → ZMod (2 ^ w))
    (p : (ι → ℕ → ZMod (2 ^ w)) × (ι → ℕ → ZMod (2 ^ w))) : Prop :=
  ∀ q < n, Auth m key (X q) (fun i => p.1 i q) (fun i => p.2 i q)

/-- A multiplication triple for `n` bits, and two arrays of authenticated masks. -/
def Triple {ι : Type} [Fintype ι] {w : ℕ} (s n : ℕ) (key : ι → ZMod (2 ^ w)) (a b t : (ι → ℕ → ZMod (2 ^ w)) × (ι → ℕ → ZMod (2 ^ w)))
    (mask mask' : (ι → Fin n → ZMod (2 ^ w)) × (ι → Fin n → ZMod (2 ^ w))) : Prop :=
  ∃ A B : ℕ → ZMod (2 ^ w), AuthFlat (s + 1) n key A a ∧ AuthFlat (s + 1) n key B b ∧ AuthFlat (s + 1) n key (fun q => A q * B q) t ∧
    (∃ R, AuthArr (1 + s) key R mask) ∧ ∃ R, AuthArr (1 + s) key R mask'

end Spu.Spec.Spdz

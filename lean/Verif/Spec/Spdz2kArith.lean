import Mathlib.LinearAlgebra.Matrix.Defs
import Verif.Spec.Spdz2kMac

set_option autoImplicit false

/-!
Specification for the arithmetic kernels of SPDZ2k.
-/

namespace Spu.Spec.Spdz

/-- Shares of the array `X` modulo `2^m`; if `has` then with MACs under the shared key. -/
structure Shared {ι : Type} [Fintype ι] {w n : ℕ} (m : ℕ) (key : ι → ZMod (2 ^ w)) (X : Fin n → ZMod (2 ^ w))
    (val mac : ι → Fin n → ZMod (2 ^ w)) (has : Bool) : Prop where
  value : ∀ j, Eqv m (∑ i, val i j) (X j)
  tag : has = true → ∀ j, Eqv m (∑ i, mac i j) ((∑ i, key i) * X j)

/-- Authenticated shares of an array. -/
def AuthArr {ι : Type} [Fintype ι] {w n : ℕ} (m : ℕ) (key : ι → ZMod (2 ^ w)) (X : Fin n → ZMod (2 ^ w))
    (p : (ι → Fin n → ZMod (2 ^ w)) × (ι → Fin n → ZMod (2 ^ w))) : Prop :=
  ∀ j, Auth m key (X j) (fun i => p.1 i j) (fun i => p.2 i j)

/-- Authenticated shares of a matrix. -/
def AuthMatrix {ι : Type} [Fintype ι] {w d e : ℕ} (m : ℕ) (key : ι → ZMod (2 ^ w)) (X : Matrix (Fin d) (Fin e) (ZMod (2 ^ w)))
    (val mac : ι → Matrix (Fin d) (Fin e) (ZMod (2 ^ w))) : Prop :=
  ∀ p q, Auth m key (X p q) (fun i => val i p q) (fun i => mac i p q)

/-- The value in the data ring of `k` bits. -/
def red {w : ℕ} (k : ℕ) (x : ZMod (2 ^ w)) : ZMod (2 ^ k) := (x.val : ZMod (2 ^ k))

/-- The last `k` bits as a signed number. -/
def signed {w : ℕ} (k : ℕ) (x : ZMod (2 ^ w)) : ℤ :=
  if x.val % 2 ^ k < 2 ^ (k - 1) then (x.val % 2 ^ k : ℕ) else (x.val % 2 ^ k : ℕ) - 2 ^ k

end Spu.Spec.Spdz

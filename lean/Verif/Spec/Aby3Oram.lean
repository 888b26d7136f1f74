import Verif.Spec.Aby3
import Verif.Model.Aby3Oram

set_option autoImplicit false

/-!
# Specification of oblivious reads
-/

namespace Spu.Spec
open Spu.Model.Aby3

/-- the vector of `n` words that is 1 at position `a` and 0 elsewhere (0 everywhere if `a` is not a position) -/
def unitVec (w a : ℕ) : ℕ → BitVec w := fun k => if k = a then 1 else 0

/-- The position an index `X` stands for in a table of `n` rows: the index modulo the next power of two. -/
def oramPos {w : ℕ} (n : ℕ) (X : BitVec w) : ℕ := X.toNat % 2 ^ Nat.clog 2 n

/-- what the three parties hold are three two-party additive sharings of the vector `T` of `n` words: the first
component of party `i` and the second component of party `i - 1` add up to it -/
def Opens2x3 {w : ℕ} (o : Sh (ℕ → BitVec w)) (n : ℕ) (T : ℕ → BitVec w) : Prop :=
  ∀ i k, k < n → o.fst i k + o.snd (i + 2) k = T k

/-- a two-party additive sharing of the vector `T` of `n` words -/
def Opens2 {w : ℕ} (o : Bool → ℕ → BitVec w) (n : ℕ) (T : ℕ → BitVec w) : Prop :=
  ∀ k, k < n → o true k + o false k = T k

/-- cell of a shared table -/
def cellSh {w : ℕ} (db : Sh (ℕ → ℕ → BitVec w)) (k c : ℕ) : Sh (BitVec w) :=
  ⟨fun i => db.fst i k c, fun i => db.snd i k c⟩

/-- What an oblivious read returns in column `c`: row `(a + offset) mod n` of the table if the position `a` is
in the table, zeros otherwise. -/
def oramValue {w : ℕ} (n a : ℕ) (offset : ℤ) (D : ℕ → ℕ → BitVec w) (c : ℕ) : BitVec w :=
  if a < n then D (((a : ℤ) + offset) % n).toNat c else 0

/-- `oramDpfOk`: the leaves of two parties agree except at position `a`, where the flags differ -/
structure DpfOk (n a : ℕ) (s : Bool → DpfLayer) : Prop where
  off_v : ∀ k, k < n → k ≠ a → (s true).v k = (s false).v k
  off_e : ∀ k, k < n → k ≠ a → (s true).e k = (s false).e k
  on_e : a < n → (s true).e a ≠ (s false).e a

end Spu.Spec

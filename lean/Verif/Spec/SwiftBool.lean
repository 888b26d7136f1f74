import Verif.Model.SwiftBool
import Verif.Spec.Swift
import Mathlib.GroupTheory.Perm.Basic

set_option autoImplicit false

/-!
# What a boolean SWIFT share means

The layout of `io.cc:77-86` with exclusive or, on the nine words the three parties hold.
-/

namespace Spu.Spec.Swift
open Spu.Model.Swift (Shr AndRand)

variable {w : ℕ}

/-- the nine words are the boolean sharing with masks `al1`, `al2`, `ga` and masked value `be` -/
structure BLayout (x : Fin 3 → Shr (BitVec w)) (al1 al2 be ga : BitVec w) : Prop where
  p0 : x 0 = ⟨al1, al2, be ^^^ ga⟩
  p1 : x 1 = ⟨al1, be, ga⟩
  p2 : x 2 = ⟨al2, be, ga⟩

/-- the parties hold a (consistent) boolean sharing of `v` -/
def BShares (x : Fin 3 → Shr (BitVec w)) (v : BitVec w) : Prop :=
  ∃ al1 al2 be ga, BLayout x al1 al2 be ga ∧ v = be ^^^ al1 ^^^ al2

/-- element `n` of an array of shares -/
def elem {N : ℕ} (x : Fin 3 → Shr (Fin N → BitVec w)) (n : Fin N) : Fin 3 → Shr (BitVec w) := fun i =>
  ⟨(x i).a n, (x i).b n, (x i).c n⟩

/-- The shuffle of `m` things prescribed by a list of numbers: at step `j` the thing at place `j` changes
places with one of those at places `j … m - 1`.  `shuffle m r n` is where the thing that ends at place `n` was. -/
def shuffle (m : ℕ) (r : ℕ → ℕ) : Equiv.Perm ℕ := ((List.range m).map fun j => Equiv.swap j (r j % (m - j) + j)).prod

/-- by how much the third value of triple `n` is off -/
def error (D : AndRand w) (n : ℕ) : BitVec w :=
  (D.c0 n 0 ^^^ D.c1 n 0) ^^^ (D.c0 n 1 ^^^ D.c1 n 1) ^^^ (D.c0 n 2 ^^^ D.c1 n 2)

/-- the words of an `AndPre` come from the pairwise streams -/
structure AndOk (D : AndRand w) : Prop where
  a : ∀ n, Paired (D.a0 n) (D.a1 n)
  b : ∀ n, Paired (D.b0 n) (D.b1 n)
  c : ∀ n, Paired (D.c0 n) (D.c1 n)

end Spu.Spec.Swift

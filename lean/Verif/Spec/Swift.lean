import Verif.Model.Swift

set_option autoImplicit false

/-!
# What a SWIFT share means

The layout of `io.cc:77-86`, stated on the nine words the three parties hold.
-/

namespace Spu.Spec.Swift
open Spu.Model.Swift (Shr)

/-- the nine words are the sharing with masks `al1`, `al2`, `ga` and masked value `be` -/
structure Layout {R : Type} [Add R] (x : Fin 3 → Shr R) (al1 al2 be ga : R) : Prop where
  p0 : x 0 = ⟨al1, al2, be + ga⟩
  p1 : x 1 = ⟨al1, be, ga⟩
  p2 : x 2 = ⟨al2, be, ga⟩

/-- the parties hold a (consistent) sharing of `v` -/
def Shares {R : Type} [AddCommGroup R] (x : Fin 3 → Shr R) (v : R) : Prop :=
  ∃ al1 al2 be ga, Layout x al1 al2 be ga ∧ v = be - al1 - al2

/-- words drawn from the pairwise streams: what a party reads from its second stream is what its
neighbour reads from its first (property C30) -/
def Paired {R : Type} (r0 r1 : Fin 3 → R) : Prop := ∀ i, r1 i = r0 (i + 1)

/-- exclusive or of two bits of two words, as a number -/
def xorBit {k : ℕ} (a b : BitVec k) (i : ℕ) : Bool := a.getLsbD i ^^ b.getLsbD i

end Spu.Spec.Swift

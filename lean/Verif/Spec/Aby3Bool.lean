import Verif.Spec.Aby3
import Verif.Spec.Semi2kConv
import Verif.Model.Aby3Conv

set_option autoImplicit false

/-!
# Specification of replicated boolean shares
-/

namespace Spu.Spec
open Spu.Model.Aby3

/-- `a` is a replicated boolean sharing of `x` with a sound declared bit count, stored in the word the
count calls for -/
structure BRep3 {w : ℕ} (a : BShr) (x : BitVec w) : Prop where
  repl : Repl a.sh
  opens : xorAll a.sh.fst = x.setWidth a.v
  lt : x.toNat < 2 ^ a.nb
  le : a.nb ≤ w
  store : Spu.Model.Semi2k.backBits a.nb = some a.v

/-- `j`-th element of an array of boolean shares -/
def elemB (a : BArr) (j : ℕ) : BShr := ⟨a.v, a.nb, elem a.sh j⟩

end Spu.Spec

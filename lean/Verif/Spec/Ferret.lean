import Verif.Spec.CheetahOt
import Verif.Model.Ferret

set_option autoImplicit false

/-!
# What correlated transfers must deliver

The receiver's block is the sender's, or differs from it by the sender's `Δ` if the choice is one.
-/

namespace Spu.Spec
open Spu.Model.Circ Spu.Model.CheetahOt Spu.Model.Ferret

structure CotOk {σ : Type} (C : Cot σ) (Inv : σ → Prop) : Prop where
  rcot : ∀ s {n}, 0 < n → Ok Inv (C.rcot s n) fun r =>
    ∀ i, i < n → r.2.2 i = 0 ∧ r.2.1 i = r.1 i ∨ r.2.2 i = 1 ∧ r.2.1 i = r.1 i ^^^ C.delta s
  cot : ∀ s {n} ch, 0 < n → Ok Inv (C.cot s n ch) fun r =>
    ∀ i, i < n → r.2 i = if ch i = 0 then r.1 i else r.1 i ^^^ C.delta s

end Spu.Spec

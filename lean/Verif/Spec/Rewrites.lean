/-
Specification of the compiler's rewrites: a rewritten program computes what the program computed.
-/
import Verif.Model.Rewrites

set_option autoImplicit false

namespace Spu.Spec.Rewrites

open Spu.Rewrites

/-- The static types are right about a run: a value computed for an expression of type `t` carries
that type, and an integer of `w` bits is in the range of the signed integers of that size. -/
def TypesRight (Γ : Env) (T : Types) : Prop :=
  (∀ e t, T.has e t → ∀ i v, e.eval Γ i = some v → v.ty = t) ∧
    ∀ e w, T.fits e w → ∀ i v, e.eval Γ i = some v →
      ∃ n : ℤ, v = .i n ∧ -2 ^ (w - 1) ≤ n ∧ n < 2 ^ (w - 1)

/-- Every element that is defined keeps its value and its type. -/
def Keeps (Γ : Env) (e e' : Ex) : Prop :=
  ∀ i v, e.eval Γ i = some v → e'.eval Γ i = some v

end Spu.Spec.Rewrites

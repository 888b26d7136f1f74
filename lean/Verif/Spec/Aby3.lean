import Verif.Spec.Gates
import Verif.Spec.Share
import Verif.Model.Aby3

set_option autoImplicit false

/-!
# Specification of replicated sharing and of the randomness aby3 consumes
-/

namespace Spu.Spec
open Spu.Model.Circ Spu.Model.Aby3 Spu.Model.Prg

/-- every component is held identically by two neighbours -/
def Repl {α : Type} (x : Sh α) : Prop := ∀ i, x.snd i = x.fst (i + 1)

/-- `x` is a replicated additive sharing of `X` -/
def Opens {R : Type} [AddCommMonoid R] (x : Sh R) (X : R) : Prop := Repl x ∧ total x.fst = X

/-- `j`-th element of an array of shares -/
def elem {w : ℕ} (x : Sh (ℕ → BitVec w)) (j : ℕ) : Sh (BitVec w) := ⟨fun i => x.fst i j, fun i => x.snd i j⟩

/-- number of words a script takes from the stream shared with the previous / the next party -/
def firsts (d : List Ctrl) : ℕ := (d.filter (· ≠ .second)).length
@[inherit_doc firsts] def seconds (d : List Ctrl) : ℕ := (d.filter (· ≠ .first)).length

/-- the scripts of the three parties fit together -/
def Fits (d : Fin 3 → List Ctrl) : Prop := ∀ i, seconds (d i) = firsts (d (i + 1))

/-- the randomness is what the protocols assume (C30): fitting draws give neighbours equal words,
public words are equal -/
structure EnvOk3 {σ : Type} (E : Env σ) (Inv : σ → Prop) : Prop where
  prss : ∀ v cnt d, Fits d → Ok Inv (E.prss v cnt d) (fun r => ∀ i, (r i).2 = (r (i + 1)).1)
  priv : ∀ v cnt i, Ok Inv (E.priv v cnt i) (fun _ => True)
  publ : Ok Inv E.publ (fun p => ∀ i j, p i = p j)

end Spu.Spec

import Mathlib.Algebra.BigOperators.Group.Finset.Basic
import Mathlib.Algebra.Ring.Defs
import Verif.Spec.CheetahMul

set_option autoImplicit false

/-!
# Polynomials modulo `X^N + 1`, and products of matrices

A polynomial is the function of its coefficients below `N`.
-/

namespace Spu.Spec.Nega

variable {A : Type} [CommRing A]

/-- the product modulo `X^N + 1` -/
def negMul (N : ℕ) (a b : ℕ → A) (k : ℕ) : A :=
  ∑ i ∈ Finset.range N, ∑ j ∈ Finset.range N,
    if i + j = k then a i * b j else if i + j = k + N then -(a i * b j) else 0

/-- the substitution of `X^g` for `X` -/
def galois (N g : ℕ) (a : ℕ → A) (k : ℕ) : A :=
  ∑ i ∈ Finset.range N, if i * g % N = k then (if i * g / N % 2 = 1 then -a i else a i) else 0

/-- entry `(r, c)` of the product of matrices with `K` columns and `K` rows -/
def matMul (K : ℕ) (x y : ℕ → ℕ → A) (r c : ℕ) : A := ∑ k ∈ Finset.range K, x r k * y k c

/-- `b` modulo the moduli of `cd` is what `a` modulo the moduli of `ce` is, as a part of the product of the moduli, but for an error
of at most `E` units of the last place -/
def Drops (ce cd : Model.Ms.Ctx) (E : ℚ) (a : (l : Fin ce.L) → ZMod (ce.q l)) (b : (l : Fin cd.L) → ZMod (cd.q l)) : Prop :=
  ∃ V W : ℤ, (∀ l, a l = V) ∧ (∀ l, b l = W) ∧ |(2 : ℚ) ^ cd.k * W / cd.Q - (2 : ℚ) ^ ce.k * V / ce.Q| ≤ E

/-- the mask with these residues is clear of rounding points -/
def MaskClear (c : Model.Ms.Ctx) (β : ℚ) (mask : (l : Fin c.L) → ZMod (c.q l)) : Prop :=
  ∀ R : ℕ, (∀ l, mask l = R) → Cmul.Clear c β R

/-- `a` and `b` are shares of `v`, up to one unit; exactly when `clear` -/
def SharesOf (k a b : ℕ) (v : ZMod (2 ^ k)) (clear : Prop) : Prop :=
  a < 2 ^ k ∧ b < 2 ^ k ∧ (∃ e : ℤ, |e| ≤ 1 ∧ (a : ZMod (2 ^ k)) + b = v + e) ∧ (clear → (a : ZMod (2 ^ k)) + b = v)

end Spu.Spec.Nega

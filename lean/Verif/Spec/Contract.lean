import Verif.Spec.Index
import Verif.Spec.Ten
import Mathlib.Algebra.Ring.Defs

set_option autoImplicit false

/-!
# What contractions mean

`dot_general` and `convolution` as in the StableHLO specification.
-/

namespace Spu.Spec

/-- the index whose coordinate number `perm[k]` is `i[k]` -/
def placed (perm i : List Nat) : List Nat := (List.range perm.length).map fun a => i.getD (perm.idxOf a) 0

/-- the axes outside two lists, in order -/
def others (xs ys : List Nat) (rank : Nat) : List Nat := (List.range rank).filter fun a => decide (a ∉ xs ∧ a ∉ ys)

/-- well-formed dimension numbers of `dot_general` on operands of shapes `L` and `R`: batch dimensions `lb`, `rb` and contracting
dimensions `lc`, `rc` -/
structure DotDims (lb rb lc rc L R : List Nat) : Prop where
  lnodup : (lb ++ lc).Nodup
  rnodup : (rb ++ rc).Nodup
  lrange : ∀ a ∈ lb ++ lc, a < L.length
  rrange : ∀ a ∈ rb ++ rc, a < R.length
  batch : permuted lb L = permuted rb R
  contract : permuted lc L = permuted rc R

/-- the element of `dot_general` at batch coordinates `b`, remaining coordinates `p` of the left and `q` of the right operand -/
def dotAt {A : Type} [CommRing A] (lb rb lc rc L R : List Nat) (x y : List Nat → A) (b p q : List Nat) : A :=
  ((allIdx (permuted lc L)).map fun c =>
    x (placed (lb ++ others lb lc L.length ++ lc) (b ++ p ++ c)) * y (placed (rb ++ rc ++ others rb rc R.length) (b ++ c ++ q))).sum

/-- the element of a two-dimensional convolution with strides `sh`, `sw`, kernel extents `h`, `w` and `C` input features at batch
`n`, place `a`, `b` and output feature `o` -/
def convAt {A : Type} [CommRing A] (sh sw h w C : Nat) (x k : Nat → Nat → Nat → Nat → A) (n a b o : Nat) : A :=
  ((List.range h).map fun i => ((List.range w).map fun j =>
    ((List.range C).map fun c => x n (a * sh + i) (b * sw + j) c * k i j c o).sum).sum).sum

end Spu.Spec

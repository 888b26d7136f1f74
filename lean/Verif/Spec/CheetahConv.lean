import Verif.Model.CheetahConv

set_option autoImplicit false

/-!
# Convolutions

A kernel of `kh x kw` moves over an image in strides, without padding; the channels are summed up.
-/

namespace Spu.Spec.Conv

variable {A : Type} [CommRing A]

/-- entry `(p, q)` of the convolution of the image `x` with the kernel `k`, both functions of row, column and channel -/
def conv (sh sw kh kw C : ℕ) (x k : ℕ → ℕ → ℕ → A) (p q : ℕ) : A :=
  ∑ c ∈ Finset.range C, ∑ i ∈ Finset.range kh, ∑ j ∈ Finset.range kw, x (p * sh + i) (q * sw + j) c * k i j c

end Spu.Spec.Conv

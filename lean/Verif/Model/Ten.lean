import Mathlib.Data.Nat.Notation
import Verif.Spec.Index
import Verif.Model.Shape
import Verif.Model.NdCopy

set_option autoImplicit false

/-!
# Tensors as functions, and the shape operations of `kernel/hal/shape_ops.cc`

A tensor is a shape and a function from indices to elements; only its values at indices in bounds matter.  The shape
operations have the meaning that is proved of their implementation on strided arrays in C04 (slice), C05 (transpose), C06
(broadcast), C07 (reshape) and C08 (concatenate, pad).  `none` is an exception.
-/

namespace Spu.Model
open Spu.Spec

/-- a tensor -/
structure Ten (α : Type) where
  shape : Shape
  get : Index → α

namespace Ten
variable {α β : Type}

/-- element-wise -/
def map (f : α → β) (t : Ten α) : Ten β := ⟨t.shape, fun i => f (t.get i)⟩

/-- element-wise on two tensors of the same shape -/
def zip {γ : Type} (f : α → β → γ) (x : Ten α) (y : Ten β) : Option (Ten γ) :=
  if x.shape = y.shape then some ⟨x.shape, fun i => f (x.get i) (y.get i)⟩ else none

/-- every `e` is at most the extent -/
def fits : List ℕ → Shape → Bool
  | [], [] => true
  | e :: es, d :: ds => decide (e ≤ d) && fits es ds
  | _, _ => false

/-- `slice` (C04) -/
def slice (t : Ten α) (b e k : List ℕ) : Option (Ten α) :=
  if fits e t.shape = true ∧ b.length = t.shape.length ∧ k.length = t.shape.length ∧ 0 ∉ k then
    some ⟨sliceShape b e k, fun i => t.get (affine b k i)⟩
  else none

/-- `reshape` (C07) -/
def reshape (t : Ten α) (sh : Shape) : Option (Ten α) :=
  if size sh = size t.shape then some ⟨sh, fun i => t.get ((unflattenIndex (pos i sh) t.shape).getD [])⟩ else none

/-- `concatenate` along axis 0 (C08) of tensors of shape `d :: ds` -/
def concat0 : List (Ten α) → Option (Ten α)
  | [] => none
  | t :: ts =>
    match t.shape with
    | [] => none
    | d :: ds =>
      if ts.all (fun u => u.shape = t.shape) then
        some ⟨((ts.length + 1) * d) :: ds, fun i => ((t :: ts).getD (i.headD 0 / d) t).get (i.headD 0 % d :: i.tail)⟩
      else none

/-- the index of the operand that padding puts at `j` -/
def padSrc : Shape → List Int → List ℕ → Index → Option Index
  | d :: ds, l :: ls, k :: ks, j :: js =>
    let t : Int := (j : Int) - l
    if 0 ≤ t ∧ t.toNat % (k + 1) = 0 ∧ t.toNat / (k + 1) < d then (padSrc ds ls ks js).map (t.toNat / (k + 1) :: ·) else none
  | [], [], [], [] => some []
  | _, _, _, _ => none

/-- `pad` (C08) -/
def pad (t : Ten α) (x : α) (lo hi : List Int) (k : List ℕ) : Option (Ten α) :=
  (deducePadShape t.shape lo hi k).map fun sh =>
    ⟨sh, fun j => match padSrc t.shape lo k j with
      | some i => t.get i
      | none => x⟩

/-- `transpose` (C05): coordinate `perm[a]` of the operand is coordinate `a` of the result -/
def transpose (t : Ten α) (perm : List ℕ) : Option (Ten α) :=
  if perm.length = t.shape.length ∧ perm.Nodup ∧ ∀ a ∈ perm, a < t.shape.length then
    some ⟨permuted perm t.shape, fun i => t.get ((List.range t.shape.length).map fun a => i.getD (perm.idxOf a) 0)⟩
  else none

/-- `unsqueeze` -/
def unsqueeze (t : Ten α) : Ten α := ⟨1 :: t.shape, fun i => t.get i.tail⟩

end Ten

/-- the indices that a loop `do ... while (bumpIndices(sh, index))` visits from `i` on -/
def visit (sh : Shape) : ℕ → Index → List Index
  | 0, i => [i]
  | n + 1, i => match bumpIndices sh i with
    | some j => i :: visit sh n j
    | none => [i]

end Spu.Model

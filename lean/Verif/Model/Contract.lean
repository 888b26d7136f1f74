import Verif.Model.Ten
import Mathlib.Algebra.Ring.Defs

set_option autoImplicit false

/-!
# Contractions: `dot_general`, `tensordot` and convolution

(`kernel/hlo/basic_binary.cc`, `kernel/hlo/convolution.cc`, `kernel/hal/ring.cc`, `dialect/pphlo/IR/canonicalization.cc`,
`device/pphlo/pphlo_executor.cc`)

Elements are ring elements; the truncation after a product of fixed-point numbers is applied to the result element by element and
is not part of the model.  `none` is an exception (or an access out of bounds).
-/

namespace Spu.Model.Con
open Spu.Spec Spu.Model

variable {R : Type} [CommRing R]

/-- matrix product (C35) -/
def matmul (x y : Ten R) : Option (Ten R) :=
  match x.shape, y.shape with
  | [m, k], [k', n] =>
    if k = k' then some ⟨[m, n], fun i => ((List.range k).map fun l => x.get [i.getD 0 0, l] * y.get [l, i.getD 1 0]).sum⟩ else none
  | _, _ => none

/-- `hlo::DotGeneral` (`basic_binary.cc:81-113`) with the checks of the executor (`pphlo_executor.cc:372-382`) -/
def dotBatch (x y : Ten R) : Option (Ten R) :=
  match x.shape, y.shape with
  | [b, m, k], [b', k', n] =>
    if b = b' then do
      let rs ← (List.range b).mapM fun t => do
        let l ← x.slice [t, 0, 0] [t + 1, m, k] [1, 1, 1]
        let l ← l.reshape [m, k]
        let r ← y.slice [t, 0, 0] [t + 1, k', n] [1, 1, 1]
        let r ← r.reshape [k', n]
        let z ← matmul l r
        return z.unsqueeze
      Ten.concat0 rs
    else none
  | _, _ => none

/-- `isConsecutive` (`canonicalization.cc:44-51`) -/
def consecutive : List ℕ → Bool
  | a :: b :: l => decide (b = a + 1) && consecutive (b :: l)
  | _ => true

/-- `TransposeIfNonConsecutive` (`canonicalization.cc:63-76`) -/
def transposeIf (t : Ten R) (order : List ℕ) : Option (Ten R) := if consecutive order then some t else t.transpose order

/-- `ReshapeIfNonStandard` (`canonicalization.cc:78-97`) -/
def standard3 (t : Ten R) (b0 b1 : ℕ) : Option (Ten R) :=
  if b0 ≤ 1 ∧ b1 - b0 ≤ 1 ∧ t.shape.length - b1 ≤ 1 then some t
  else t.reshape [size (t.shape.take b0), size ((t.shape.take b1).drop b0), size (t.shape.drop b1)]

/-- `lhsTargetOrder` (`canonicalization.cc:125-141`): batch, parallel, contracting -/
def lhsOrder (lb lc : List ℕ) (rank : ℕ) : List ℕ :=
  lb ++ ((List.range rank).filter fun a => decide (a ∉ lb ∧ a ∉ lc)) ++ lc

/-- `rhsTargetOrder` (`canonicalization.cc:147-164`): batch, contracting, parallel -/
def rhsOrder (rb rc : List ℕ) (rank : ℕ) : List ℕ :=
  rb ++ rc ++ (List.range rank).filter fun a => decide (a ∉ rb ∧ a ∉ rc)

/-- `TransposeReshapeGenericDotGeneral` (`canonicalization.cc:99-296`) and the execution of its result; an operand of rank 2 is
either read out of bounds by `newShape` (`:277-279`) or rejected by the executor (`pphlo_executor.cc:372`) -/
def dotGeneral (lb rb lc rc : List ℕ) (ret : Shape) (x y : Ten R) : Option (Ten R) :=
  if lc = [] ∨ rc = [] then none
  else do
    let l ← transposeIf x (lhsOrder lb lc x.shape.length)
    let r ← transposeIf y (rhsOrder rb rc y.shape.length)
    if lb = [] then
      let base := x.shape.length - lc.length
      let M := size (l.shape.take base)
      let K := size (l.shape.drop base)
      let K' := size (r.shape.take rc.length)
      let N := size (r.shape.drop rc.length)
      if K ≠ K' then none
      else
        let l ← l.reshape [M, K]
        let r ← r.reshape [K, N]
        let z ← matmul l r
        z.reshape ret
    else
      let l ← standard3 l rb.length (x.shape.length - lc.length)
      let r ← standard3 r rb.length (rb.length + rc.length)
      let z ← dotBatch l r
      z.reshape ret

/-- `ensureAtLeast3D` (`hlo_legalize_to_pphlo.cc:738-750`): one trailing dimension of extent 1 -/
def atLeast3D (t : Ten R) : Option (Ten R) := if 3 ≤ t.shape.length then some t else t.reshape (t.shape ++ [1])

/-- `stablehlo.dot_general`: legalised (`hlo_legalize_to_pphlo.cc:752-769`), canonicalised and executed -/
def dotGeneralHlo (lb rb lc rc : List ℕ) (ret : Shape) (x y : Ten R) : Option (Ten R) := do
  let x ← atLeast3D x
  let y ← atLeast3D y
  dotGeneral lb rb lc rc ret x y

/-- `buildFullIndex` (`ring.cc:613-623`) -/
def fullIndex (idx : List ℕ) (n : ℕ) : List ℕ := idx ++ (List.range n).filter fun a => decide (a ∉ idx)

/-- `_tensordot` (`ring.cc:636-671`) -/
def tensordot (ix iy : List ℕ) (x y : Ten R) : Option (Ten R) := do
  if ix.length ≠ iy.length then none
  else
    let px := fullIndex ix x.shape.length
    let xx ← x.transpose (px.drop ix.length ++ px.take ix.length)
    let nx := xx.shape.length - ix.length
    let x2 ← xx.reshape [size (xx.shape.take nx), size (xx.shape.drop nx)]
    let yy ← y.transpose (fullIndex iy y.shape.length)
    let y2 ← yy.reshape [size (yy.shape.take ix.length), size (yy.shape.drop ix.length)]
    let z ← matmul x2 y2
    z.reshape (xx.shape.take nx ++ yy.shape.drop ix.length)

/-- `concatenate` along axis 1 of tensors of shape `n :: 1 :: ds` -/
def concat1 {α : Type} : List (Ten α) → Option (Ten α)
  | [] => none
  | t :: ts =>
    match t.shape with
    | n :: d :: ds =>
      if ts.all (fun u => u.shape = t.shape) then
        some ⟨n :: ((ts.length + 1) * d) :: ds, fun i =>
          ((t :: ts).getD (i.getD 1 0 / d) t).get (i.getD 0 0 :: (i.getD 1 0 % d) :: i.drop 2)⟩
      else none
    | _ => none

/-- `Convolution2D` (`convolution.cc:24-108`) -/
def conv2d (sh sw : ℕ) (ret : Shape) (x k : Ten R) : Option (Ten R) :=
  match x.shape, k.shape, ret with
  | [N, H, W, C], [h, w, C', O], [rn, hh, ww, ro] =>
    if C' = C ∧ rn = N ∧ ro = O ∧ 0 < sh ∧ 0 < sw ∧ h ≤ H ∧ w ≤ W ∧ hh = (H - h) / sh + 1 ∧ ww = (W - w) / sw + 1 then do
      let images ← ((List.range hh).flatMap fun a => (List.range ww).map fun b => (a * sh, b * sw)).mapM fun (p : ℕ × ℕ) => do
        let win ← x.slice [0, p.1, p.2, 0] [N, p.1 + h, p.2 + w, C] [1, 1, 1, 1]
        win.reshape [N, 1, h, w, C]
      let stacked ← concat1 images
      let e ← stacked.reshape [N, hh * ww, h * w, C]
      let e ← e.reshape [N, hh, ww, h, w, C]
      tensordot [3, 4, 5] [0, 1, 2] e k
    else none
  | _, _, _ => none

/-- one spatial dimension (`pphlo_executor.cc:406-442`, and the same in `canonicalization.cc:447-518`) -/
def conv1d (s : ℕ) (ret : Shape) (x k : Ten R) : Option (Ten R) :=
  match x.shape, k.shape, ret with
  | [n, w, c], [kw, c', o], [r0, r1, r2] => do
    let x' ← x.reshape [n, 1, w, c]
    let k' ← k.reshape [1, kw, c', o]
    let z ← conv2d 1 s [r0, 1, r1, r2] x' k'
    z.reshape ret
  | _, _, _ => none

/-- `inversePermutation` (`canonicalization.cc:23-31`) -/
def inversePerm (p : List ℕ) : List ℕ := (List.range p.length).map fun a => p.idxOf a

/-- `NormalizeDimensionOrder` (`canonicalization.cc:301-445`) and the execution of its result; `io`, `ko`, `oo` list the dimensions
of input (batch, spatial, feature), kernel (spatial, input, output) and output (batch, spatial, feature) -/
def convolution (sh sw : ℕ) (io ko oo : List ℕ) (ret : Shape) (x k : Ten R) : Option (Ten R) :=
  if io = List.range 4 ∧ ko = List.range 4 then conv2d sh sw ret x k
  else do
    let x' ← (if io = List.range 4 then some x else x.transpose io : Option (Ten R))
    let k' ← (if ko = List.range 4 then some k else k.transpose ko : Option (Ten R))
    let z ← conv2d sh sw (permuted oo ret) x' k'
    z.transpose (inversePerm oo)

end Spu.Model.Con

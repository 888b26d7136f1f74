import Verif.Model.Ten
import Verif.Spec.Gather

set_option autoImplicit false

/-!
# `gather`

(`kernel/hlo/indexing.cc:38-312, 422-516`, `kernel/hlo/utils.h:32-57`)

The kernel for public indices.  The attributes are the ones of the operation (`GatherDims`); `std::binary_search` on the sorted
attribute lists is membership.  The index buffers that the functors reuse are overwritten entirely by every call and are created
anew here.  Complex operands are gathered twice, real and imaginary part alike.  `none` is an exception or an access out of
bounds.
-/

namespace Spu.Model.Gat
open Spu.Spec Spu.Model

/-- `iterationSpaceForOutputBatchIndices` (`indexing.cc:46-63`) -/
def batchCounts (g : GatherDims) (out : Shape) : List ℕ :=
  (List.range out.length).map fun i => if i ∈ g.offsetDims then 1 else out.getD i 0

/-- `while (binary_search(collapsed, slice_sizes_idx)) slice_sizes_idx++` (`indexing.cc:77-81`), bounded by `fuel` -/
def skipCollapsed (c : List ℕ) : ℕ → ℕ → ℕ
  | 0, s => s
  | f + 1, s => if s ∈ c then skipCollapsed c f (s + 1) else s

/-- `iterationSpaceForOutputOffsetIndices` (`indexing.cc:67-88`) from output dimension `is` and slice dimension `s` on -/
def offsetCounts (g : GatherDims) : List ℕ → ℕ → List ℕ
  | [], _ => []
  | i :: is, s =>
    if i ∈ g.offsetDims then
      let s' := skipCollapsed g.collapsed g.sizes.length s
      g.sizes.getD s' 0 :: offsetCounts g is (s' + 1)
    else 1 :: offsetCounts g is s

/-- `propagateOutputIndexGatherDimsToIndexVectorIndex` (`indexing.cc:156-172`) -/
def propagate (g : GatherDims) (o : Index) : List ℕ → ℕ → List ℕ → Option (List ℕ)
  | [], _, buf => some buf
  | i :: is, k, buf =>
    if i ∈ g.offsetDims then propagate g o is k buf
    else
      let k := if k = g.ivd then k + 1 else k
      if k < buf.length then propagate g o is (k + 1) (buf.set k (o.getD i 0)) else none

/-- `fetchIndexVector` (`indexing.cc:176-183`) -/
def fetchVec (g : GatherDims) (si : Ten ℤ) (buf : List ℕ) : Option (List ℤ) :=
  if g.ivd < si.shape.length then
    (List.range (si.shape.getD g.ivd 0)).mapM fun k =>
      if inBounds (buf.set g.ivd k) si.shape then some (si.get (buf.set g.ivd k)) else none
  else none

/-- `OutputBatchIndexToInputIndex::operator()` (`indexing.cc:145-150, 186-192`) -/
def batchToInput (g : GatherDims) (si : Ten ℤ) (rank : ℕ) (out : Shape) (b : Index) : Option (List ℤ) := do
  let buf ← propagate g b (List.range out.length) 0 (List.replicate si.shape.length 0)
  let v ← fetchVec g si buf
  return (List.range rank).map fun d =>
    let k := g.startMap.idxOf d
    if k = g.startMap.length then 0 else v.getD k 0

/-- `window_index_to_output_index` (`indexing.cc:226-236`) -/
def windowToOutput (g : GatherDims) (out : Shape) : List ℕ := (List.range out.length).filter fun i => decide (i ∈ g.offsetDims)

/-- `input_dim_value_to_output_index_` (`indexing.cc:238-247`) -/
def dimToOutput (g : GatherDims) (w : List ℕ) : List ℕ → ℕ → Option (List (Option ℕ))
  | [], _ => some []
  | d :: ds, c =>
    if d ∈ g.collapsed then (dimToOutput g w ds c).map (none :: ·)
    else if c < w.length then (dimToOutput g w ds (c + 1)).map (some (w.getD c 0) :: ·)
    else none

/-- the input index of `gather_inner_loop_body` (`indexing.cc:464-490`) -/
def inputIndex (sh out : Shape) (dto : List (Option ℕ)) (gi : List ℤ) (w : Index) : List ℤ :=
  (List.range sh.length).map fun d =>
    let a := dto.getD d none
    let ext : ℕ := match a with
      | none => 1
      | some a => out.getD a 0
    let win : ℕ := match a with
      | none => 0
      | some a => w.getD a 0
    min ((sh.getD d 0 : ℤ) - ext) (max 0 (gi.getD d 0)) + win

variable {α : Type}

/-- one element (`indexing.cc:458-500`) -/
def copyOne (op : Ten α) (out : Shape) (dto : List (Option ℕ)) (gi : List ℤ) (b : Index) (r : Index → α) (w : Index) :
    Option (Index → α) :=
  let o := List.zipWith (· + ·) b w
  let s := inputIndex op.shape out dto gi w
  if inBounds o out = true ∧ s.all (fun v => decide (0 ≤ v)) = true ∧ inBounds (s.map Int.toNat) op.shape = true then
    some fun i => if i = o then op.get (s.map Int.toNat) else r i
  else none

/-- `Gather` (`indexing.cc:424-516`); `junk` is what the new buffer holds -/
def gather (g : GatherDims) (op : Ten α) (si : Ten ℤ) (out : Shape) (junk : Index → α) : Option (Ten α) :=
  if size op.shape = 0 then some op
  else do
    let si ← (if si.shape.length = g.ivd then si.reshape (si.shape ++ [1]) else some si : Option (Ten ℤ))
    let dto ← dimToOutput g (windowToOutput g out) (List.range op.shape.length) 0
    let bc := batchCounts g out
    let oc := offsetCounts g (List.range out.length) 0
    let r ← (visit bc (numel bc) (List.replicate bc.length 0)).foldlM (fun r b => do
      let gi ← batchToInput g si op.shape.length out b
      (visit oc (numel oc) (List.replicate oc.length 0)).foldlM (copyOne op out dto gi b) r) junk
    return ⟨out, r⟩

end Spu.Model.Gat

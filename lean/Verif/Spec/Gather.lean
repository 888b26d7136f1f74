import Verif.Spec.Ten
import Verif.Spec.DynSlice
import Verif.Spec.Contract
import Mathlib.Data.List.InsertIdx
import Mathlib.Data.List.Sort

set_option autoImplicit false

/-!
# What `gather` means

`gather` of the StableHLO specification.
-/

namespace Spu.Spec

/-- the attributes of a gather -/
structure GatherDims where
  offsetDims : List Nat
  collapsed : List Nat
  opBatch : List Nat := []
  idxBatch : List Nat := []
  startMap : List Nat
  ivd : Nat
  sizes : List Nat

namespace GatherDims

/-- component `k` of the start index vector at batch coordinates `b`; `r` is the rank of the tensor of start indices -/
def startVec (g : GatherDims) (r : Nat) (idx : List Nat → Int) (b : List Nat) (k : Nat) : Int :=
  if g.ivd < r then idx (b.insertIdx g.ivd k) else idx b

/-- `full_start_index` -/
def fullStart (g : GatherDims) (sh : List Nat) (r : Nat) (idx : List Nat → Int) (b : List Nat) (d : Nat) : Nat :=
  if d ∈ g.startMap then clampTo (sh.getD d 0 - g.sizes.getD d 0) (g.startVec r idx b (g.startMap.idxOf d)) else 0

/-- `full_batching_index` -/
def fullBatch (g : GatherDims) (b : List Nat) (d : Nat) : Nat :=
  if d ∈ g.opBatch then
    let e := g.idxBatch.getD (g.opBatch.idxOf d) 0
    b.getD (if e < g.ivd then e else e - 1) 0
  else 0

/-- the operand dimensions that are offset dimensions of the result, in order -/
def kept (g : GatherDims) (rank : Nat) : List Nat := others g.collapsed g.opBatch rank

/-- `full_offset_index` -/
def fullOffset (g : GatherDims) (rank : Nat) (o : List Nat) (d : Nat) : Nat :=
  if d ∈ g.collapsed ∨ d ∈ g.opBatch then 0 else o.getD (g.offsetDims.getD ((g.kept rank).idxOf d) 0) 0

/-- the index of the operand whose element is element `o` of the result -/
def src (g : GatherDims) (sh : List Nat) (r : Nat) (idx : List Nat → Int) (o : List Nat) : List Nat :=
  (List.range sh.length).map fun d =>
    g.fullStart sh r idx (rest g.offsetDims o) d + g.fullBatch (rest g.offsetDims o) d + g.fullOffset sh.length o d

/-- the batch dimensions of the result -/
def batchShape (g : GatherDims) (ish : List Nat) : List Nat := if g.ivd < ish.length then ish.eraseIdx g.ivd else ish

/-- the attributes are well-formed for an operand of shape `sh`, start indices of shape `ish` and a result of shape `out` -/
structure Wf (g : GatherDims) (sh ish out : List Nat) : Prop where
  off_sorted : g.offsetDims.Pairwise (· < ·)
  off_lt : ∀ a ∈ g.offsetDims, a < out.length
  col_lt : ∀ a ∈ g.collapsed, a < sh.length
  bat_lt : ∀ a ∈ g.opBatch, a < sh.length
  col_bat : (g.collapsed ++ g.opBatch).Nodup
  map_nodup : (g.startMap ++ g.opBatch).Nodup
  map_lt : ∀ a ∈ g.startMap, a < sh.length
  ivd_le : g.ivd ≤ ish.length
  map_len : g.startMap.length = if g.ivd < ish.length then ish.getD g.ivd 0 else 1
  bat_len : g.opBatch.length = g.idxBatch.length
  ibat_lt : ∀ a ∈ g.idxBatch, a < ish.length ∧ a ≠ g.ivd
  bat_ext : ∀ k, k < g.opBatch.length → sh.getD (g.opBatch.getD k 0) 0 = ish.getD (g.idxBatch.getD k 0) 0
  sizes_fit : SliceFits sh g.sizes
  col_one : ∀ a ∈ g.collapsed, g.sizes.getD a 0 = 1
  bat_one : ∀ a ∈ g.opBatch, g.sizes.getD a 0 = 1
  out_batch : rest g.offsetDims out = g.batchShape ish
  out_offset : permuted g.offsetDims out = permuted (g.kept sh.length) g.sizes

end GatherDims

end Spu.Spec

import Verif.Model.Gather
import Verif.Model.DynSlice

set_option autoImplicit false

/-!
# How gathers are rewritten

* `GeneralGatherSimplifier` of the front end (`compiler/front_end/hlo_importer.cc:71-372`): a gather with batching dimensions
  becomes one without, and a gather without batching dimensions becomes one with a matrix of start indices, an identity
  `start_index_map` and no collapsed dimensions, between reshapes and transpositions.  HLO instructions, and the functions
  `MakeOperandStartIndexPermutations`, `MaybeTranspose`, `TransformStartIndices`, `ElideDegenerateDims` and
  `ExpandFirstDimIntoNDims` that XLA provides, are what they compute.
* `expand_secret_gather.cc`: a gather with secret start indices becomes a loop of dynamic slices and updates, which are those of
  C76.  The code that builds the loop and the execution of the loop are one function.

`none` is an exception, or a program that does not type-check.
-/

namespace Spu.Model.Gat
open Spu.Spec Spu.Model Spu.Model.Dyn

/-- every dimension but `p` in order, then `p` (`hlo_importer.cc:141-147`, `expand_secret_gather.cc:100-108`) -/
def lastPerm (rank p : ℕ) : List ℕ := ((List.range rank).filter fun i => decide (i ≠ p)) ++ [p]

/-! ## Batching dimensions -/

/-- the column `k` of a concatenation along the last dimension -/
def pickLast : List (Ten ℤ) → Index → ℕ → ℤ
  | [], _, _ => 0
  | t :: ts, b, k => if k < t.shape.getLastD 0 then t.get (b ++ [k]) else pickLast ts b (k - t.shape.getLastD 0)

/-- concatenation along the last dimension -/
def concatLast (lead : Shape) (ts : List (Ten ℤ)) : Option (Ten ℤ) :=
  if ts.all (fun t => decide (t.shape = lead ++ [t.shape.getLastD 0])) = true then
    some ⟨lead ++ [(ts.map fun t => t.shape.getLastD 0).sum], fun i => pickLast ts i.dropLast (i.getLastD 0)⟩
  else none

/-- the start indices with their vector dimension last (`hlo_importer.cc:120-149`); the transposition is given the shape of its
operand as its result -/
def vectorLast (g : GatherDims) (si : Ten ℤ) : Option (Ten ℤ) :=
  if g.ivd = si.shape.length then si.reshape (si.shape ++ [1])
  else if g.ivd + 1 = si.shape.length then some si
  else do
    let t ← si.transpose (lastPerm si.shape.length g.ivd)
    if t.shape = si.shape then some t else none

/-- where a batching dimension is then (`hlo_importer.cc:162-171`); `r` is the new rank -/
def movedDim (g : GatherDims) (rank r e : ℕ) : ℕ :=
  if g.ivd = rank ∨ g.ivd + 1 = rank then e
  else if e > g.ivd then e - 1 else if e = g.ivd then r - 1 else e

/-- the numbers of the batch along dimension `e` (`hlo_importer.cc:173-200`) -/
def batchIota (ty : IntTy) (sh : Shape) (e : ℕ) : Option (Ten ℤ) :=
  let n := sh.getD e 0
  let sh' := sh.set (sh.length - 1) 1
  if e < sh'.length ∧ sh'.getD e 0 = n then some ⟨sh', fun o => (iota ty n).get [o.getD e 0]⟩ else none

/-- the branch for batching dimensions (`hlo_importer.cc:106-272`); `ty` is the element type of the start indices -/
def unbatch (ty : IntTy) (g : GatherDims) (si : Ten ℤ) : Option (GatherDims × Ten ℤ) := do
  let si1 ← vectorLast g si
  let r := si1.shape.length
  let comps ← g.idxBatch.mapM fun e => batchIota ty si1.shape (movedDim g si.shape.length r e)
  let si2 ← concatLast si1.shape.dropLast (comps ++ [si1])
  if g.opBatch.all (fun d => decide (g.sizes.getD d 0 = 1)) = true then
    return ({ offsetDims := g.offsetDims
              collapsed := (g.collapsed ++ g.opBatch).mergeSort (fun a b => decide (a ≤ b))
              startMap := g.opBatch ++ g.startMap
              ivd := r - 1
              sizes := g.sizes }, si2)
  else none

/-- `IsSimplifiedGather` (`hlo_importer.cc:357-367`) -/
def isSimplified (g : GatherDims) (ish : Shape) : Bool :=
  decide (ish.length = 2 ∧ g.ivd = 1 ∧ g.startMap = List.range g.startMap.length ∧ g.collapsed = [] ∧
    g.offsetDims.head? = some 1 ∧ g.offsetDims.getLast? = some g.offsetDims.length)

/-! ## Dimensions of the result -/

/-- the permutation that moves the dimensions of the result to their places (`hlo_importer.cc:340-354`,
`expand_secret_gather.cc:649-665`), from dimension `is` on -/
def finalPerm (off : List ℕ) : List ℕ → ℕ → ℕ → List ℕ
  | [], _, _ => []
  | i :: is, b, f => if i ∈ off then f :: finalPerm off is b (f + 1) else b :: finalPerm off is (b + 1) f

section
variable {α : Type}

/-- a reshape that drops dimensions -/
def elide (t : Ten α) (dims : List ℕ) : Option (Ten α) := t.reshape (rest dims t.shape)

/-! ## Simplification -/

/-- the start indices as a matrix, by `TransformStartIndices` of XLA -/
def matrixIndices (g : GatherDims) (si : Ten ℤ) : Option (Ten ℤ) := do
  let t ← (if g.ivd = si.shape.length then si.reshape (si.shape ++ [1]) else si.transpose (lastPerm si.shape.length g.ivd) :
    Option (Ten ℤ))
  t.reshape [size t.shape.dropLast, t.shape.getLastD 0]

/-- `MakeOperandStartIndexPermutations` of XLA: the dimensions in `start_index_map`, then the others -/
def operandPerm (m : List ℕ) (rank : ℕ) : List ℕ := m ++ (List.range rank).filter fun d => decide (d ∉ m)

/-- the gather without batching dimensions (`hlo_importer.cc:274-308`): operand, start indices, attributes and result shape -/
def simplifyPre (g : GatherDims) (op : Ten α) (si : Ten ℤ) : Option (GatherDims × Ten α × Ten ℤ × Shape) := do
  let rank := g.collapsed.length + g.offsetDims.length
  let op' ← op.transpose (operandPerm g.startMap rank)
  let si' ← matrixIndices g si
  let sizes := permuted (operandPerm g.startMap rank) g.sizes
  return ({ offsetDims := (List.range rank).map (· + 1)
            collapsed := []
            startMap := List.range g.startMap.length
            ivd := 1
            sizes := sizes }, op', si', si'.shape.getD 0 0 :: sizes)

/-- the extents of the batch (`hlo_importer.cc:326-333`, `expand_secret_gather.cc:331-337`) -/
def batchBounds (ivd : ℕ) (ish : Shape) : Shape :=
  ((List.range ish.length).filter fun i => decide (i ≠ ivd)).map fun i => ish.getD i 0

/-- what is done with its result (`hlo_importer.cc:308-354`); reshapes that change nothing are not left out -/
def simplifyPost (g : GatherDims) (ish : Shape) (r : Ten α) : Option (Ten α) := do
  let rank := g.collapsed.length + g.offsetDims.length
  let r ← r.transpose (0 :: (Con.inversePerm (operandPerm g.startMap rank)).map (· + 1))
  let r ← elide r (g.collapsed.map (· + 1))
  let bs := batchBounds g.ivd ish
  let r ← r.reshape (bs ++ r.shape.tail)
  r.transpose (finalPerm g.offsetDims (List.range (bs.length + g.offsetDims.length)) 0 bs.length)

/-! ## Secret start indices -/

/-- `CanonicalizeGatherIndices` (`expand_secret_gather.cc:190-223`) -/
def canonicalIndices (g : GatherDims) (si : Ten ℤ) : Option (Ten ℤ) :=
  if g.ivd = si.shape.length then
    si.reshape (if si.shape.length = 0 then [1] else [size si.shape])
  else do
    let t ← (if g.ivd + 1 = si.shape.length then some si else si.transpose (lastPerm si.shape.length g.ivd) : Option (Ten ℤ))
    t.reshape (size t.shape.dropLast :: t.shape.drop (t.shape.length - 1))

end

variable {R : Type} [CommRing R]

/-- `ExpandIndexVectorIntoOperandSpace` (`expand_secret_gather.cc:374-439`) -/
def expandVector (g : GatherDims) (rank : ℕ) (iv : Ten ℤ) : Option (List StartIdx) :=
  (List.range rank).mapM fun d =>
    let k := g.startMap.idxOf d
    if k ≠ g.startMap.length then (if k < iv.shape.getD 0 0 then some ⟨true, iv.get [k]⟩ else none) else some ⟨true, 0⟩

/-- the body of the loop for counter `c` (`expand_secret_gather.cc:443-534`) -/
def loopBody (oram : Bool) (ty : IntTy) (g : GatherDims) (op : Ten R) (ci : Ten ℤ) (c : ℤ) (acc : Ten R) : Option (Ten R) := do
  let iv ← (if ci.shape.length = 1 then dynamicSlice oram ty ci [1] [⟨false, c⟩]
    else (dynamicSlice oram ty ci [1, ci.shape.getD 1 0] [⟨false, c⟩, ⟨false, 0⟩]).bind fun t => elide t [0] : Option (Ten ℤ))
  let starts ← expandVector g op.shape.length iv
  let s ← dynamicSlice oram ty op g.sizes starts
  let s ← elide s g.collapsed
  let s' ← s.reshape (1 :: s.shape)
  let r ← dynamicUpdateSlice acc s' (⟨false, c⟩ :: List.replicate s.shape.length ⟨false, 0⟩)
  return r.1

/-- the loop: counter and bound are variables of the index type (`expand_secret_gather.cc:350-365, 455-458, 586-595`) -/
def runLoop {S : Type} (ty : IntTy) (bound : ℤ) (body : ℤ → S → Option S) : ℕ → ℤ → S → Option S
  | 0, _, _ => none
  | f + 1, c, s => if c < bound then (body c s).bind (runLoop ty bound body f (ty.wrap (c + 1))) else some s

/-- `GatherConverter` (`expand_secret_gather.cc:538-669`); `fuel` bounds the number of iterations -/
def secretGather (oram : Bool) (ty : IntTy) (g : GatherDims) (op : Ten R) (si : Ten ℤ) (out : Shape) (fuel : ℕ) :
    Option (Ten R) :=
  if g.sizes = op.shape then do
    -- `GatherIsBroadcast`, `DeleteDimensions` (`expand_secret_gather.cc:31-59, 560-580`)
    let b ← op.reshape ((List.range op.shape.length).filter fun d => decide (d ∉ g.collapsed))
    if b.shape = permuted g.offsetDims out then some ⟨out, fun o => b.get (permuted g.offsetDims o)⟩ else none
  else do
    let n := size (batchBounds g.ivd si.shape)
    let ci ← canonicalIndices g si
    if ci.shape.getD 0 0 = n ∧ (ci.shape.length = 1 ↔ g.ivd = ci.shape.length) then
      let acc ← runLoop ty (ty.wrap n) (loopBody oram ty g op ci) fuel 0 ⟨n :: rest g.collapsed g.sizes, fun _ => 0⟩
      let bs := batchBounds g.ivd si.shape
      let acc ← acc.reshape (bs ++ acc.shape.tail)
      let r ← acc.transpose (finalPerm g.offsetDims (List.range out.length) 0 (out.length - g.offsetDims.length))
      if r.shape = out then some r else none
    else none

/-- the passes applied until nothing changes (`hlo_importer.cc:86-372`, run by `HloPassFix`), and the execution of the gather that
remains by `run`; a gather that had batching dimensions has collapsed dimensions afterwards, so it is simplified as well -/
def frontEnd {α : Type} (ty : IntTy) (run : GatherDims → Ten α → Ten ℤ → Shape → Option (Ten α)) (g : GatherDims) (op : Ten α)
    (si : Ten ℤ) (out : Shape) : Option (Ten α) :=
  if isSimplified g si.shape = true then run g op si out
  else do
    let gs ← (if g.opBatch = [] then some (g, si) else unbatch ty g si : Option (GatherDims × Ten ℤ))
    let p ← simplifyPre gs.1 op gs.2
    let r ← run p.1 p.2.1 p.2.2.1 p.2.2.2
    simplifyPost gs.1 gs.2.shape r

end Spu.Model.Gat

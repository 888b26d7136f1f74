import Verif.Model.Contract
import Mathlib.Data.Int.Notation
import Mathlib.Algebra.Ring.Int.Defs

set_option autoImplicit false

/-!
# Dynamic slices and updates, and filters

(`kernel/hlo/indexing.cc:314-934`, `kernel/hal/utils.cc`, `kernel/hal/constants.cc:105-111`, `kernel/hal/ring.cc:670-710`,
`mpc/aby3/oram.cc:144-260`)

A start index is an integer together with its visibility.  Elements are ring elements.  The comparison of a secret index with the
numbers `0, 1, …`, the clamp and the oblivious read are the functions they compute (C10, C47, C74).  `none` is an exception or an
access out of bounds.
-/

namespace Spu.Model.Dyn
open Spu.Spec Spu.Model

/-- a start index -/
structure StartIdx where
  secret : Bool
  val : ℤ
deriving DecidableEq, Repr

/-- an integer element type -/
structure IntTy where
  bits : ℕ
  signed : Bool

/-- the value that remains of an integer in a variable of the type -/
def IntTy.wrap (t : IntTy) (v : ℤ) : ℤ := if t.signed then Int.bmod v (2 ^ t.bits) else v % 2 ^ t.bits

/-- `hal::squeeze` of axis 0 (`utils.cc:19-29`) -/
def squeeze0 {α : Type} (t : Ten α) : Option (Ten α) :=
  match t.shape with
  | [] => none
  | d :: ds => if d = 1 then t.reshape ds else some t

/-- one result is returned as it is, several are concatenated -/
def gatherRows {α : Type} : List (Ten α) → Option (Ten α)
  | [t] => some t
  | l => Ten.concat0 l

/-- a slice with integer bounds; a negative start is outside the buffer -/
def sliceI {α : Type} (t : Ten α) (start limit : List ℤ) : Option (Ten α) :=
  if start.all (fun v => decide (0 ≤ v)) = true ∧ limit.all (fun v => decide (0 ≤ v)) = true then
    t.slice (start.map Int.toNat) (limit.map Int.toNat) (List.replicate t.shape.length 1)
  else none

/-- `start_indices[i] = min(max(start_indices[i], 0), dim - size)` (`indexing.cc:862-872`) -/
def clampStarts : List ℕ → List ℕ → List ℤ → List ℤ
  | d :: ds, s :: ss, v :: vs => min (max v 0) ((d : ℤ) - s) :: clampStarts ds ss vs
  | _, _, _ => []

section
variable {α : Type}

/-- `DynamicSlice` with public start indices (`indexing.cc:857-884`) -/
def publicSlice (op : Ten α) (sizes : List ℕ) (starts : List ℤ) : Option (Ten α) :=
  let b := clampStarts op.shape sizes starts
  sliceI op b (List.zipWith (fun (v : ℤ) (s : ℕ) => v + s) b sizes)

end

variable {R : Type} [CommRing R]

/-- `hal::iota` (`constants.cc:105-111`): the numbers `0, 1, …` in variables of the type -/
def iota (ty : IntTy) (n : ℕ) : Ten ℤ := ⟨[n], fun i => ty.wrap (i.headD 0)⟩

/-- `hal::equal` with a broadcast index -/
def oneHot (ty : IntTy) (n : ℕ) (i : ℤ) : Ten R := (iota ty n).map fun k => if i = k then 1 else 0

/-- the operand as a matrix (`indexing.cc:625-633`; a vector is taken as one column by `_mmul`, `ring.cc:313-320`) -/
def collapse (op : Ten R) : Option (Ten R) :=
  match op.shape with
  | [] => none
  | [n] => op.reshape [n, 1]
  | [_, _] => some op
  | n :: ds => op.reshape [n, size ds]

/-- row `k` of the slice that begins at the index encoded in `mask` (`indexing.cc:638-648`) -/
def maskRow (op : Ten R) (mask : Ten R) (n k : ℕ) : Option (Ten R) := do
  let m ← mask.slice [size mask.shape - k - n] [size mask.shape - k] [1]
  let c ← collapse op
  let r ← Con.matmul m.unsqueeze c
  r.reshape (1 :: op.shape.tail)

/-- `SecretDynamicSliceImpl` (`indexing.cc:574-670`) -/
def secretImpl (ty : IntTy) : List ℕ → Ten R → List ℤ → Option (Ten R)
  | [], _, _ => none
  | s :: ss, op, starts =>
    match op.shape, starts with
    | n :: ds, i :: is =>
      if s = n then
        if ss = [] then some op
        else do
          let rs ← (List.range n).mapM fun k => do
            let sl ← op.slice (k :: List.replicate ds.length 0) ((k + 1) :: ds) (List.replicate (ds.length + 1) 1)
            let r ← squeeze0 sl
            let x ← secretImpl ty ss r is
            return x.unsqueeze
          gatherRows rs
      else do
        let mask := oneHot ty n i
        let mask ← if 1 ≤ s then mask.pad 0 [(s : ℤ)] [0] [0] else some mask
        let rs ← (List.range s).mapM fun k => do
          let r ← maskRow op mask n k
          if ss = [] then return r
          else do
            let r ← squeeze0 r
            let x ← secretImpl ty ss r is
            return x.unsqueeze
        gatherRows rs
    | _, _ => none

/-- `oramread` (`ring.cc:690-710`; `oram.cc:144-180`): the product of the matrix with the unit vector rotated by `offset` -/
def oramRead (op : Ten R) (onehot : ℕ → R) (n offset : ℕ) : Option (Ten R) := do
  let c ← collapse op
  let r ← Con.matmul ⟨[1, n], fun i => onehot ((i.getD 1 0 + n - offset) % n)⟩ c
  r.reshape (1 :: op.shape.tail)

/-- `SecretDynamicSliceOramImpl` (`indexing.cc:672-781`); `oram` tells whether the protocol has an oblivious read -/
def oramImpl (oram : Bool) (ty : IntTy) : List ℕ → Ten R → List ℤ → Option (Ten R)
  | [], _, _ => none
  | s :: ss, op, starts =>
    match op.shape, starts with
    | n :: ds, i :: is =>
      if s = n then
        if ss = [] then some op
        else do
          let rs ← (List.range n).mapM fun k => do
            let sl ← op.slice (k :: List.replicate ds.length 0) ((k + 1) :: ds) (List.replicate (ds.length + 1) 1)
            let r ← sl.reshape ds
            let x ← oramImpl oram ty ss r is
            x.reshape (1 :: x.shape)
          gatherRows rs
      else if oram = false then secretImpl ty (s :: ss) op starts
      else do
        let onehot : ℕ → R := fun k => if i = k then 1 else 0
        let rs ← (List.range s).mapM fun k => do
          let r ← oramRead op onehot n k
          if ss = [] then return r
          else do
            let r ← r.reshape ds
            let x ← oramImpl oram ty ss r is
            x.reshape (1 :: ss)
        gatherRows rs
    | _, _ => none

/-- `start` and `limit` in the part of `SecretDynamicSlice` that removes public indices (`indexing.cc:795-805`) -/
def pruneBounds : List ℕ → List ℕ → List StartIdx → List (ℤ × ℤ)
  | d :: ds, s :: ss, i :: is =>
    (if i.secret then ((0 : ℤ), (d : ℤ)) else (min ((d : ℤ) - s) i.val, min ((d : ℤ) - s) i.val + s)) :: pruneBounds ds ss is
  | _, _, _ => []

/-- the part of `SecretDynamicSlice` that removes public indices (`indexing.cc:783-812`) -/
def prune (op : Ten R) (sizes : List ℕ) (starts : List StartIdx) : Option (Ten R) :=
  let cs := pruneBounds op.shape sizes starts
  sliceI op (cs.map Prod.fst) (cs.map Prod.snd)

/-- `SecretDynamicSlice` (`indexing.cc:783-846`) -/
def secretDynamicSlice (oram : Bool) (ty : IntTy) (op : Ten R) (sizes : List ℕ) (starts : List StartIdx) : Option (Ten R) := do
  let op ← if starts.any (fun i => !i.secret) = true then prune op sizes starts else some op
  let vs := starts.map fun i => if i.secret then i.val else 0
  oramImpl oram ty sizes op (clampStarts op.shape sizes vs)

/-- `DynamicSlice` (`indexing.cc:848-888`) -/
def dynamicSlice (oram : Bool) (ty : IntTy) (op : Ten R) (sizes : List ℕ) (starts : List StartIdx) : Option (Ten R) :=
  if sizes.length = starts.length ∧ sizes.length = op.shape.length ∧ starts ≠ [] then
    if starts.all (fun i => !i.secret) = true then publicSlice op sizes (starts.map StartIdx.val)
    else secretDynamicSlice oram ty op sizes starts
  else none

/-- the update fits -/
def updateFits : List ℕ → List ℕ → List ℤ → Bool
  | d :: ds, u :: us, v :: vs => decide (0 ≤ v ∧ v + u ≤ d) && updateFits ds us vs
  | [], [], [] => true
  | _, _, _ => false

/-- the place within the update, if the index is in its range -/
def updatePlace : List ℕ → List ℕ → List ℤ → Option (List ℕ)
  | i :: is, u :: us, v :: vs =>
    if v ≤ i ∧ (i : ℤ) < v + u then (updatePlace is us vs).map (((i : ℤ) - v).toNat :: ·) else none
  | [], [], [] => some []
  | _, _, _ => none

/-- `update_slice` (`ndarray_ref.cc:515-560`) -/
def writeSlice {α : Type} (op upd : Ten α) (starts : List ℤ) : Option (Ten α) :=
  if updateFits op.shape upd.shape starts = true then
    some ⟨op.shape, fun o => match updatePlace o upd.shape starts with
      | some i => upd.get i
      | none => op.get o⟩
  else none

/-- the loop over the axes, last one first, that computes the position of the start and the stride (`indexing.cc:384-392`) -/
def flattenStart : List ℤ → List ℕ → ℤ × ℤ
  | c :: cs, d :: ds => ((flattenStart cs ds).1 + c * (flattenStart cs ds).2, (flattenStart cs ds).2 * d)
  | _, _ => (0, 1)

/-- `ClampAndFlattenIndex` (`indexing.cc:343-418`): the position of every element of the update -/
def clampAndFlatten (starts : List ℤ) (iter limit : List ℕ) : Option (List ℤ) := do
  let lin := (flattenStart (clampStarts limit iter starts) limit).1
  let offs ← (visit iter (numel iter) (List.replicate iter.length 0)).mapM fun i => flattenIndex i limit
  if offs.length = size iter then some (offs.map fun (p : ℕ) => lin + (p : ℤ)) else none

/-- `SecretLinearUpdateIndexing` (`indexing.cc:314-341`) -/
def linearUpdate (op : Ten R) (u : R) (lin : ℤ) : Ten R :=
  ⟨op.shape, fun i =>
    let m : R := if lin = (i.headD 0 : ℤ) then 1 else 0
    op.get i * (1 - m) + u * m⟩

/-- `DynamicUpdateSlice` (`indexing.cc:518-566`): the result, and the numbers of the secret indices that it reveals -/
def dynamicUpdateSlice (op upd : Ten R) (starts : List StartIdx) : Option (Ten R × List ℕ) :=
  if starts.length = op.shape.length ∧ starts.length = upd.shape.length then
    match starts with
    | [] => none
    | i :: _ =>
      if i.secret then do
        let fo ← op.reshape [size op.shape]
        let fu ← upd.reshape [size upd.shape]
        let ls ← clampAndFlatten (starts.map StartIdx.val) upd.shape op.shape
        let ret := (ls.zipIdx).foldl (fun r p => linearUpdate r (fu.get [p.2]) p.1) fo
        let ret ← ret.reshape op.shape
        return (ret, [])
      else do
        let ret ← writeSlice op upd (clampStarts op.shape upd.shape (starts.map StartIdx.val))
        return (ret, (List.range starts.length).filter fun k => (starts.getD k ⟨false, 0⟩).secret)
  else none

/-- the loop that collects the numbers of the set entries (`indexing.cc:905-912`) -/
def filterIndices : List ℕ → ℕ → List ℕ
  | [], _ => []
  | m :: ms, k => if m ≠ 0 then k :: filterIndices ms (k + 1) else filterIndices ms (k + 1)

/-- `FilterByMask` (`indexing.cc:890-915`) -/
def filterByMask {α : Type} (op : Ten α) (mask : List ℕ) : Option (Ten α) :=
  if op.shape = [mask.length] then
    let ix := filterIndices mask 0
    some ⟨[ix.length], fun i => op.get [ix.getD (i.headD 0) 0]⟩
  else none

end Spu.Model.Dyn

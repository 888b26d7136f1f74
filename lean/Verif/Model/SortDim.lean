import Verif.Model.Ten
import Verif.Model.QuickSort
set_option autoImplicit false
/-!
# Sorting and top-k along a dimension, and the choice of the sorting method

Source: `kernel/hal/permute.cc` — `_has_efficient_shuffle` 93-98, `_check_method_require` 100-124,
`select_sort_method` 126-159, `fallback_sort1d` 161-178, `_inverse_index` 186-193, `sort1d` with a
public comparator 1518-1562, `simple_sort1d` 1570-1681, `permute` 1683-1756; `kernel/hlo/sort.cc`
33-44 and `kernel/hlo/rank.cc` 24-122.

Values are plain here.  A 1-d tensor is a list.
-/

namespace Spu.Model.SortDim
open Spu.Spec Spu.Model Spu.Model.SortNet Spu.Model.QuickSort

variable {α : Type}

/-- the elements of a 1-d tensor -/
def toVec (t : Ten α) : List α := (List.range (t.shape.getD 0 0)).map fun k => t.get [k]

/-- the 1-d tensor of a list -/
def ofVec [Inhabited α] (l : List α) : Ten α := ⟨[l.length], fun i => l.getD (i.headD 0) default⟩

/-- `std::swap(l[d], l.back())` — permute.cc:1708 and 1715. -/
def swapLast (l : List ℕ) (d : ℕ) : List ℕ :=
  (l.set d (l.getD (l.length - 1) 0)).set (l.length - 1) (l.getD d 0)

/-- `_inverse_index` — permute.cc:186-193. -/
def inverseIndex (p : List ℕ) : List ℕ :=
  (List.range p.length).foldl (fun q i => q.set (p.getD i 0) i) (List.replicate p.length 0)

/-- `reshape(slice(x, {i, 0}, {i + 1, W}), {W})` — permute.cc:1735-1737, rank.cc:42-44. -/
def rowVec (x : Ten α) (i W : ℕ) : Option (List α) := do
  let s ← x.slice [i, 0] [i + 1, W] [1, 1]
  let s ← s.reshape [W]
  some (toVec s)

/-- `permute` — permute.cc:1683-1756.  `fn i` is the function applied to line number `i` (it may draw
fresh randomness for every line). -/
def permuteDim [Inhabited α] (fn : ℕ → List (List α) → Option (List (List α)))
    (inputs : List (Ten α)) (d : ℕ) : Option (List (Ten α)) :=
  match inputs with
  | [] => none
  | x :: _ =>
    let shape := x.shape
    if d < shape.length then
      let W := shape.getD d 0
      if W = 0 then some inputs
      else do
        let N := size shape / W
        let perm := swapLast (List.range shape.length) d
        let unperm := inverseIndex perm
        let permShape := swapLast shape d
        let inputs2d ← inputs.mapM fun t => do
          let t ← t.transpose perm
          t.reshape [N, W]
        let permuted1d ← (List.range N).mapM fun ni => do
          let lines ← inputs2d.mapM fun t => rowVec t ni W
          fn ni lines
        (List.range inputs.length).mapM fun mi => do
          let output2d ← permuted1d.mapM fun r => (r[mi]?).map fun l => (ofVec l).unsqueeze
          let result ← Ten.concat0 output2d
          let result ← result.reshape permShape
          result.transpose unperm
    else none

/-- `TopkApply` — rank.cc:24-74.  `fn i` is `topk_1d` on line `i`: the values, and the positions
unless only the values are wanted. -/
def topkApply [Inhabited α] (fn : ℕ → List α → Option (List α × Option (List α))) (x : Ten α) :
    Option (List (Ten α)) :=
  if x.shape = [] then none
  else do
    let W := x.shape.getD (x.shape.length - 1) 0
    let N := size x.shape / W
    let r2 ← x.reshape [N, W]
    let topk1d ← (List.range N).mapM fun i => do
      let l ← rowVec r2 i W
      fn i l
    let first ← topk1d[0]?
    let k := first.1.length
    let newShape := x.shape.set (x.shape.length - 1) k
    let value2d ← topk1d.mapM fun r => (ofVec r.1).reshape [1, k]
    let v ← Ten.concat0 value2d
    let v ← v.reshape newShape
    (if first.2.isSome then do
      let index2d ← topk1d.mapM fun r => do
        let i ← r.2
        (ofVec i).reshape [1, k]
      let i ← Ten.concat0 index2d
      let i ← i.reshape newShape
      some [v, i]
    else some [v])

/-- `TopK` — rank.cc:78-122; `fn lo hi` is `topk_1d` with these bounds. -/
def topK [Inhabited α] (fn : ℤ → ℤ → ℕ → List α → Option (List α × Option (List α)))
    (kLo kHi : ℤ) (valueOnly : Bool) (x : Ten α) : Option (List (Ten α)) :=
  if size x.shape = 0 then some (if valueOnly then [x] else [x, x])
  else if kLo ≤ x.shape.getD (x.shape.length - 1) 0 ∧ 0 < kLo then
    let kHi := if kHi = -1 then kLo else kHi
    if kLo ≤ kHi then topkApply (fn kLo kHi) x else none
  else none

/-- `hal::topk_1d` on a secret line as `TopK` calls it (rank.cc:113-117), with the kernels for
shuffling; every line is shuffled afresh. -/
def topkLine {w : ℕ} (d : Dir) (valueOnly : Bool) (perm : ℕ → (n : ℕ) → Equiv.Perm (Fin n))
    (kLo kHi : ℤ) (i : ℕ) (l : List (BitVec w)) : Option (List (BitVec w) × Option (List (BitVec w))) :=
  topkSelect d ⟨valueOnly, false, kLo, kHi⟩ (perm i l.length) (fun j : Fin l.length => l[j])
    (fun _ => 0) (2 * l.length + 2)

/-! ### the choice of the method -/

/-- `RuntimeConfig::SortMethod` -/
inductive Method
  | default | radix | quick | network
  deriving DecidableEq

/-- what `simple_sort1d` reads of the context: the configured method, the kernels that are present
and whether the protocol is semi2k or aby3. -/
structure SortCtx where
  method : Method
  randPermM : Bool
  permAm : Bool
  permAp : Bool
  invPermAm : Bool
  invPermAp : Bool
  randB : Bool
  efficientShuffle : Bool

/-- `_check_method_require` — permute.cc:100-124. -/
def checkMethod (s : SortCtx) : Method → Option Bool
  | .radix => some (s.randPermM && s.permAm && s.permAp && s.invPermAm && s.invPermAp)
  | .quick => some (s.randPermM && s.permAm && s.randB)
  | .network => some true
  | .default => none

/-- `select_sort_method` — permute.cc:126-159. -/
def selectMethod (s : SortCtx) (preferred : Method) : Option Method := do
  if preferred = .default then none
  else
    let ok ← checkMethod s preferred
    if ok then some preferred
    else if preferred = .network then none
    else some .network

/-- `std::sort` and `std::stable_sort` on indices with the given comparator; `true` is the stable
one. -/
abbrev StdSort := Bool → (ℕ → ℕ → Bool) → List ℕ → List ℕ

/-- the lines as the operands of the comparators -/
def colsOf {w : ℕ} (M : ℕ) (ls : List (List (BitVec w))) : Cols M w := fun o => ls.getD o.val []

/-- `sort1d` with a public comparator — permute.cc:1532-1555: indices are sorted, then every operand
is permuted. -/
def plainSort {w : ℕ} (std : StdSort) (stable : Bool) (d : Dir) (numKeys : ℕ)
    (ls : List (List (BitVec w))) : List (List (BitVec w)) :=
  let c := colsOf ls.length ls
  let idx := std stable (fun a b => cmpFunc d numKeys (rowAt c a) (rowAt c b))
    (List.range (ls.headD []).length)
  ls.map fun l => idx.map fun i => l.getD i 0

/-- the sorting network on lines — `odd_even_merge_sort` (`Model.SortNet`). -/
def networkLines {w : ℕ} (d : Dir) (numKeys : ℕ) (ls : List (List (BitVec w))) :
    Option (List (List (BitVec w))) :=
  (oddEvenMergeSort (cmpFunc d numKeys) (ls.headD []).length (colsOf ls.length ls)).map List.ofFn

/-- the coins of one quick sort of `n` records -/
structure Coins (n : ℕ) where
  perm : Equiv.Perm (Fin n)
  bits : ℕ → ℕ → Bool

/-- quick sort on lines (`Model.QuickSort`). -/
def quickLines {w : ℕ} (thres : ℤ) (coins : (n : ℕ) → Coins n) (d : Dir) (numKeys : ℕ)
    (ls : List (List (BitVec w))) : Option (List (List (BitVec w))) :=
  (quickSort thres d numKeys (coins (ls.headD []).length).perm (coins (ls.headD []).length).bits
    (colsOf ls.length ls)).map List.ofFn

/-- `simple_sort1d` — permute.cc:1570-1681.  `pub k` tells whether operand `k` is public; `radix` is
the radix sort (C33). -/
def simpleSort1d {w : ℕ} (s : SortCtx) (pub : ℕ → Bool) (std : StdSort) (thres : ℤ)
    (coins : (n : ℕ) → Coins n)
    (radix : Dir → ℕ → List (List (BitVec w)) → Option (List (List (BitVec w)))) (d : Dir)
    (numKeys : ℕ) (stable : Bool) (ls : List (List (BitVec w))) :
    Option (List (List (BitVec w))) :=
  if ls ≠ [] ∧ (∀ l ∈ ls, l.length = (ls.headD []).length) ∧ 0 < numKeys ∧ numKeys ≤ ls.length then
    if (List.range numKeys).all pub then some (plainSort std stable d numKeys ls)
    else if stable then
      (if checkMethod s .radix = some true then radix d numKeys ls else none)
    else if s.method = .default then
      (if checkMethod s .radix = some true ∧ s.efficientShuffle = true then radix d numKeys ls
      else if checkMethod s .quick = some true then quickLines thres coins d numKeys ls
      else networkLines d numKeys ls)
    else
      match selectMethod s s.method with
      | some .radix => radix d numKeys ls
      | some .quick => quickLines thres coins d numKeys ls
      | some .network => networkLines d numKeys ls
      | _ => none
  else none

/-- `SimpleSort` — kernel/hlo/sort.cc:33-44; every line draws its own coins. -/
def simpleSort {w : ℕ} (s : SortCtx) (pub : ℕ → Bool) (std : StdSort) (thres : ℤ)
    (coins : ℕ → (n : ℕ) → Coins n)
    (radix : ℕ → Dir → ℕ → List (List (BitVec w)) → Option (List (List (BitVec w)))) (d : Dir)
    (numKeys : ℕ) (stable : Bool) (inputs : List (Ten (BitVec w))) (dim : ℕ) :
    Option (List (Ten (BitVec w))) :=
  permuteDim (fun i => simpleSort1d s pub std thres (coins i) (radix i) d numKeys stable) inputs dim

end Spu.Model.SortDim

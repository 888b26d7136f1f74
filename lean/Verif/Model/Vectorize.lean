import Verif.Model.NdCopy
import Mathlib.Data.List.Basic

set_option autoImplicit false

/-!
# Model of `core/vectorize.h`, `SimdTrait<NdArrayRef>`, `TreeReduce` and the scans of `kernel/hal/utils.h`

Arrays carry an element type tag `τ` (`eltype()`), a buffer and a view; conventions of `Verif.Model.NdArray`.
The reducers and the scan are modelled on clear elements: a tensor that is cut along one axis is the list (or the
matrix) of its slices, and `vmap` is element-wise combination (what C09 proves about `vmap`).
-/

namespace Spu.Model

/-- `NdArrayRef` with buffer and element type — core/ndarray_ref.h:38-54. -/
structure Arr (τ α : Type) where
  ty : τ
  buf : Array α
  view : View
deriving DecidableEq

/-- Copy loop of `SimdTrait<NdArrayRef>::pack` — core/ndarray_ref.h:376-384; returns the buffer and the pack info. -/
def packLoop {τ α : Type} : List (Arr τ α) → Nat → Array α → Option (Array α × List Shape)
  | [], _, buf => some (buf, [])
  | a :: as, off, buf => do
    let dst : View := ⟨a.view.shape, makeCompactStrides a.view.shape, off⟩
    let zero := List.replicate a.view.shape.length 0
    let buf' ← copySlice a.buf a.view buf dst zero zero (numel a.view.shape)
    let r ← packLoop as (off + numel a.view.shape) buf'
    return (r.1, a.view.shape :: r.2)

/-- `SimdTrait<NdArrayRef>::pack` — core/ndarray_ref.h:364-386 (`SimdTrait<Value>::pack`, core/value.h:108-133, adds the
same check for the dtype). -/
def simdPack {τ α : Type} [DecidableEq τ] (junk : α) (as : List (Arr τ α)) : Option (Arr τ α × List Shape) :=
  match as with
  | [] => none
  | a :: _ => do
    if as.all (fun b => decide (b.ty = a.ty)) then
      let total := (as.map fun b => numel b.view.shape).sum
      let r ← packLoop as 0 (Array.replicate total junk)
      return (⟨a.ty, r.1, ⟨[total], makeCompactStrides [total], 0⟩⟩, r.2)
    else none

/-- Loop of `SimdTrait<NdArrayRef>::unpack` — core/ndarray_ref.h:399-404: views into the buffer of `v`, starting at byte 0
whatever the offset and the strides of `v` are. -/
def unpackLoop {τ α : Type} (v : Arr τ α) : List Shape → Nat → List (Arr τ α)
  | [], _ => []
  | s :: ss, off => ⟨v.ty, v.buf, ⟨s, makeCompactStrides s, off⟩⟩ :: unpackLoop v ss (off + numel s)

/-- `SimdTrait<NdArrayRef>::unpack` — core/ndarray_ref.h:388-407. -/
def simdUnpack {τ α : Type} (v : Arr τ α) (pi : List Shape) : Option (List (Arr τ α)) :=
  if numel v.view.shape = (pi.map numel).sum then some (unpackLoop v pi 0) else none

/-- unary `vmap` — core/vectorize.h:113-122. -/
def vmap1 {τ α : Type} [DecidableEq τ] (junk : α) (op : Arr τ α → Option (Arr τ α)) (as : List (Arr τ α)) :
    Option (List (Arr τ α)) := do
  let p ← simdPack junk as
  let r ← op p.1
  simdUnpack r p.2

/-- binary `vmap` — core/vectorize.h:133-144: the result is cut by the shapes of the left operands. -/
def vmap2 {τ α : Type} [DecidableEq τ] (junk : α) (op : Arr τ α → Arr τ α → Option (Arr τ α)) (as bs : List (Arr τ α)) :
    Option (List (Arr τ α)) := do
  let p ← simdPack junk as
  let q ← simdPack junk bs
  let r ← op p.1 q.1
  simdUnpack r p.2

/-- `SimdTrait` of containers, `pack` — core/vectorize.h:69-81. -/
def packC {α : Type} (ls : List (List α)) : List α × List Nat := (ls.flatten, ls.map List.length)

/-- Loop of the container `unpack` — core/vectorize.h:91-98. -/
def splitC {α : Type} : List Nat → List α → List (List α)
  | [], _ => []
  | n :: ns, v => v.take n :: splitC ns (v.drop n)

/-- `SimdTrait` of containers, `unpack` — core/vectorize.h:83-101. -/
def unpackC {α : Type} (v : List α) (pi : List Nat) : Option (List (List α)) :=
  if v.length = pi.sum then some (splitC pi v) else none

/-- unary `vmap` on containers. -/
def vmapC {α : Type} (op : List α → List α) (ls : List (List α)) : Option (List (List α)) :=
  unpackC (op (packC ls).1) (packC ls).2

/-! ## Reductions -/

/-- One round of `vreduce` — core/vectorize.h:186-201. -/
def vreduceRound {α : Type} (op : α → α → α) (xs : List α) : List α :=
  let half := xs.length / 2
  let next := List.zipWith op (xs.take half) ((xs.drop half).take half)
  if xs.length % 2 = 1 then next ++ (xs.drop (xs.length - 1)).take 1 else next

theorem vreduceRound_length {α : Type} (op : α → α → α) (xs : List α) :
    (vreduceRound op xs).length = (xs.length + 1) / 2 := by
  unfold vreduceRound
  simp only
  split
  · simp only [List.length_append, List.length_zipWith, List.length_take, List.length_drop]; omega
  · simp only [List.length_zipWith, List.length_take, List.length_drop]; omega

/-- `vreduce` — core/vectorize.h:180-212; dereferencing the end iterator of an empty range is undefined. -/
def vreduce {α : Type} (op : α → α → α) (xs : List α) : Option α :=
  if 1 < xs.length then vreduce op (vreduceRound op xs) else xs.head?
termination_by xs.length
decreasing_by rw [vreduceRound_length]; omega

/-- First loop of `TreeReduce` — kernel/hlo/reduce.cc:47-91: the remaining slices and the stack of tails. -/
def treeLoop {α : Type} (op : α → α → α) (xs : List α) (tails : List (List α)) : List α × List (List α) :=
  if _h : 1 < xs.length then
    let half := xs.length / 2
    let lhs := xs.take half
    let rhs := (xs.drop half).take half
    let tails' := if xs.length % 2 = 1 then xs.drop (2 * half) :: tails else tails
    treeLoop op (List.zipWith op lhs rhs) tails'
  else (xs, tails)
termination_by xs.length
decreasing_by simp; omega

/-- `TreeReduce` along one axis — kernel/hlo/reduce.cc:31-105. -/
def treeReduce {α : Type} (op : α → α → α) (xs : List α) : List α :=
  let r := treeLoop op xs []
  r.2.foldl (fun acc t => List.zipWith op acc t) r.1

/-- The loop that finds the largest power of two not above `len` — kernel/hal/utils.h:178-181. -/
def lowerExp (len p : Nat) : Nat :=
  if _h : 0 < p ∧ 2 * p ≤ len then lowerExp len (2 * p) else p
termination_by len - p
decreasing_by omega

/-- Halving loop of `associative_reduce` — kernel/hal/utils.h:199-205. -/
def halvingLoop {α : Type} (op : α → α → α) (xs : List α) : List α :=
  if _h : 1 < xs.length then
    let half := xs.length / 2
    halvingLoop op (List.zipWith op (xs.take half) ((xs.drop half).take half))
  else xs
termination_by xs.length
decreasing_by simp; omega

/-- `associative_reduce` of one row — kernel/hal/utils.h:152-208. -/
def associativeReduce {α : Type} (op : α → α → α) (xs : List α) : List α :=
  if xs.length < 2 then xs
  else
    let len := xs.length
    let p := lowerExp len 1
    let cur :=
      if len ≠ p then
        let c := xs.drop p
        let b := (xs.drop (2 * p - len)).take (p - (2 * p - len))
        xs.take (2 * p - len) ++ List.zipWith op c b
      else xs
    halvingLoop op cur

/-! ## Scan -/

/-- A matrix: `rows` rows of `cols` elements. -/
structure Mat (α : Type) where
  rows : Nat
  cols : Nat
  get : Nat → Nat → α

/-- `hal::slice` of every row, columns `lo, lo + step, …` below `hi`; ends beyond the row throw. -/
def Mat.sliceCols {α : Type} (m : Mat α) (lo hi step : Nat) : Option (Mat α) :=
  if m.cols < hi then none
  else some ⟨m.rows, (hi - lo + step - 1) / step, fun i j => m.get i (lo + step * j)⟩

/-- `vmap` of a binary function over the rows of two matrices (C09), concatenated again. -/
def Mat.zip {α : Type} (op : α → α → α) (a b : Mat α) : Option (Mat α) :=
  if a.rows = b.rows ∧ a.cols = b.cols then some ⟨a.rows, a.cols, fun i j => op (a.get i j) (b.get i j)⟩ else none

/-- `hal::concatenate` along axis 1. -/
def Mat.hcat {α : Type} (a b : Mat α) : Option (Mat α) :=
  if a.rows = b.rows then
    some ⟨a.rows, a.cols + b.cols, fun i j => if j < a.cols then a.get i j else b.get i (j - a.cols)⟩
  else none

/-- `hal::pad` of the columns: `lo` in front, `hi` behind and `k` between any two (C08). -/
def Mat.padCols {α : Type} (z : α) (m : Mat α) (lo hi k : Nat) : Mat α :=
  ⟨m.rows, lo + (m.cols + k * (m.cols - 1)) + hi, fun i j =>
    if lo ≤ j ∧ (j - lo) % (k + 1) = 0 ∧ (j - lo) / (k + 1) < m.cols then m.get i ((j - lo) / (k + 1)) else z⟩

/-- Left operands of the second combination — kernel/hal/utils.h:95-103: all scanned pairs, without the last one when the
number of columns `n` is even. -/
def Mat.scanLeft {α : Type} (odd : Mat α) (n : Nat) : Option (Mat α) :=
  if n % 2 = 0 then odd.sliceCols 0 (odd.cols - 1) 1 else odd.sliceCols 0 odd.cols 1

/-- `associative_scan` — kernel/hal/utils.h:52-127.  `fuel` bounds the recursion depth (running out is `none`). -/
def associativeScan {α : Type} [Add α] [Zero α] (op : α → α → α) : Nat → Mat α → Option (Mat α)
  | 0, _ => none
  | fuel + 1, m =>
    if m.cols < 2 ∨ m.rows * m.cols = 0 then some m
    else do
      let odd ← m.sliceCols 0 (m.cols - 1) 2
      let even ← m.sliceCols 1 m.cols 2
      let red ← Mat.zip op odd even
      let oddElems ← associativeScan op fuel red
      let l ← oddElems.scanLeft m.cols
      let r ← m.sliceCols 2 m.cols 2
      let evenElems ← Mat.zip op l r
      let first ← m.sliceCols 0 1 1
      let finalEven ← Mat.hcat first evenElems
      let same := decide (finalEven.rows * finalEven.cols = oddElems.rows * oddElems.cols)
      let padEven := finalEven.padCols 0 0 (if same then 1 else 0) 1
      let padOdd := oddElems.padCols 0 1 (if same then 0 else 1) 1
      Mat.zip (· + ·) padEven padOdd

end Spu.Model

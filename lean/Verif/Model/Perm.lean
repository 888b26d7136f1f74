import Mathlib.Data.BitVec
import Mathlib.Data.List.FinRange
import Mathlib.Data.List.Sort

set_option autoImplicit false

/-!
# Permutation helpers (`mpc/utils/permute.cc`) and the local permutation kernels (`mpc/common/pv2k.cc`)

A one-dimensional array of `N` elements is a function on `Fin N`.  An index outside the array is undefined behaviour
(`none`); so is handing out a result with an element that no iteration wrote.  `ord` is the order in which the iterations
of a `pforeach` happen to run (every index once; the kernels of `pv2k.cc` run them in ascending order).
-/

namespace Spu.Model.Perm

variable {α : Type} {N : ℕ}

/-- One iteration `_y[pv[i]] = _x[i]`. -/
def writeAt (x : Fin N → α) (pv : Fin N → ℕ) (y : Fin N → Option α) (i : Fin N) : Option (Fin N → Option α) :=
  if h : pv i < N then some (Function.update y ⟨pv i, h⟩ (some (x i))) else none

/-- The array after all iterations, if every element was written. -/
def allWritten (y : Fin N → Option α) : Option (Fin N → α) :=
  if h : ∀ j, (y j).isSome then some fun j => (y j).get (h j) else none

/-- `applyInvPerm` (`permute.cc:40-69`), `InvPermPP`, `InvPermVV` at the owner (`pv2k.cc:762-814`). -/
def applyInvPerm (ord : List (Fin N)) (x : Fin N → α) (pv : Fin N → ℕ) : Option (Fin N → α) :=
  (ord.foldlM (writeAt x pv) fun _ => none).bind allWritten

/-- `applyPerm` (`permute.cc:71-100`), `PermPP`, `PermVV` at the owner (`pv2k.cc:816-868`). -/
def applyPerm (x : Fin N → α) (pv : Fin N → ℕ) : Option (Fin N → α) :=
  if h : ∀ i, pv i < N then some fun i => x ⟨pv i, h i⟩ else none

/-- A permutation vector stored in ring elements, as indices (`ring2pv`, `permute.cc:27-38`, and `_pv[i]`). -/
def idx {v : ℕ} (p : Fin N → BitVec v) : Fin N → ℕ := fun i => (p i).toNat

/-- `genInversePerm` (`permute.cc:102-111`). -/
def genInversePerm {v : ℕ} (ord : List (Fin N)) (perm : Fin N → BitVec v) : Option (Fin N → BitVec v) :=
  applyInvPerm ord (fun i => BitVec.ofNat v i) (idx perm)

/-- `std::stable_sort` of `0 … N-1` with the comparison `lt`: a stable sorting algorithm (its result does not depend on
the algorithm, `c17_stable_unique`). -/
def stableSort (N : ℕ) (lt : Fin N → Fin N → Bool) : List (Fin N) :=
  (List.finRange N).insertionSort fun a b => lt b a = false

/-- `genPermBySort` (`permute.cc:113-127`): comparison of signed words. -/
def genPermBySort {w : ℕ} (x : Fin N → BitVec w) : List (Fin N) :=
  stableSort N fun a b => decide ((x a).toInt < (x b).toInt)

/-- The comparison of `GenInvPermP` (`pv2k.cc:712-714`). -/
def keyLess {w : ℕ} (x : Fin N → BitVec w) (ascending : Bool) (a b : Fin N) : Bool :=
  if ascending then decide ((x a).toInt < (x b).toInt) else decide ((x a).toInt > (x b).toInt)

/-- `GenInvPermP`, `GenInvPermV` at the owner (`pv2k.cc:691-760`): `_out[perm[idx]] = idx`. -/
def genInvPerm {w : ℕ} (x : Fin N → BitVec w) (ascending : Bool) : Option (Fin N → BitVec w) :=
  let perm := stableSort N (keyLess x ascending)
  if h : perm.length = N then
    applyInvPerm (List.finRange N) (fun i => BitVec.ofNat w i) fun i => (perm[i.val]'(by rw [h]; exact i.isLt)).val
  else none

/-- Loop of `MergeKeysP` (`pv2k.cc:887-897`): `k` iterations from element `i - 1` with value `cur`. -/
def mergeFrom {w : ℕ} (keys : List (ℕ → BitVec w)) (ascending : Bool) : ℕ → ℕ → BitVec w → List (BitVec w)
  | 0, _, _ => []
  | k + 1, i, cur =>
    let next := if keys.all fun x => x i == x (i - 1) then cur else if ascending then cur + 1 else cur - 1
    next :: mergeFrom keys ascending k (i + 1) next

/-- `MergeKeysP`, `MergeKeysV` at the owner (`pv2k.cc:870-942`): the keys have `n` elements; `_out[0]` is written
unconditionally, outside the array when `n = 0`. -/
def mergeKeys {w : ℕ} (keys : List (ℕ → BitVec w)) (n : ℕ) (ascending : Bool) : Option (List (BitVec w)) :=
  if keys = [] ∨ n = 0 then none else some (0 :: mergeFrom keys ascending (n - 1) 1 0)

end Spu.Model.Perm

/-
Lowering of `if` and `case`.

* `/repo/src/libspu/dialect/pphlo/transforms/decompose_ops.cc:53-122`: a `case` on a public index
  becomes a chain of `if`s.
* `/repo/src/libspu/dialect/pphlo/transforms/inline_secret_control_flow.cc:27-221`: a `case` on a
  secret index becomes a sum of masked results, an `if` on a secret condition a selection.
* `/repo/src/libspu/kernel/hlo/control_flow.cc:31-113`: the kernels for both.

A branch is the tensors it returns: result `j` at position `p` is an element of a ring.  Indices are
signed integers (of 32 bits in StableHLO), on which comparisons are exact (C37).
-/
import Mathlib.Algebra.Ring.Basic
import Mathlib.Data.List.Basic
import Mathlib.Tactic.Ring

set_option autoImplicit false

namespace Spu.CaseLower

variable {R : Type} [CommRing R]

/-- The results of a branch: result number and position. -/
abbrev Outs (R : Type) := ℕ → ℕ → R

/-- `createNestedCases`, `decompose_ops.cc:67-97`, from the case number `i` on; `none` without
branches.  One branch is inlined (`:102-111`). -/
def nested (idx : ℤ) : ℤ → List (Outs R) → Option (Outs R)
  | _, [] => none
  | _, [b] => some b
  | i, b :: bs => if idx = i then some b else nested idx (i + 1) bs

/-- The clamp of the index, `inline_secret_control_flow.cc:75-84`: `min(max(lo, x), hi)`. -/
def clampIdx (lo x hi : ℤ) : ℤ := min (max lo x) hi

/-- The sum of masked results, `inline_secret_control_flow.cc:110-135` and
`control_flow.cc:76-108`; the mask of branch `i` is `equal(i, index)`. -/
def masked (index : ℤ) : List (Outs R) → Option (Outs R)
  | [] => none
  | b :: bs => some ((bs.zipIdx 1).foldl
      (fun acc q => fun j p => acc j p + q.1 j p * (if (q.2 : ℤ) = index then 1 else 0))
      (fun j p => b j p * (if (0 : ℤ) = index then 1 else 0)))

/-- A `case` on a public index after compilation. -/
def publicCase (idx : ℤ) (bs : List (Outs R)) : Option (Outs R) := nested idx 0 bs

/-- A `case` on a secret index after compilation; one branch is inlined by the earlier pass. -/
def secretCase (idx : ℤ) (bs : List (Outs R)) : Option (Outs R) :=
  if bs.length = 1 then bs.head? else masked (clampIdx 0 idx (bs.length - 1)) bs

/-- `hlo::Case` with a public index, `control_flow.cc:57-62`. -/
def kernelPublic (idx : ℤ) (bs : List (Outs R)) : Option (Outs R) :=
  let ub : ℤ := bs.length - 1
  bs[(if idx < 0 ∨ ub < idx then ub else idx).toNat]?

/-- `hlo::Case` with a secret index, `control_flow.cc:63-110`. -/
def kernelSecret (idx : ℤ) (bs : List (Outs R)) : Option (Outs R) :=
  let ub : ℤ := bs.length - 1
  let p := decide (idx < 0) || decide (ub < idx)
  masked (if p then ub else idx) bs

/-- A secret `if`: `select(cond, x, y)`, which is `y + cond * (x - y)`
(`/repo/src/libspu/kernel/hal/ring.cc:465-470`). -/
def secretIf (c : Bool) (x y : Outs R) : Outs R :=
  fun j p => y j p + (if c then 1 else 0) * (x j p - y j p)

end Spu.CaseLower

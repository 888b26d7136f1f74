import Verif.Model.NdArray
import Verif.Model.Value

set_option autoImplicit false

/-!
# Model of `mpc/utils/tiling_util.h`

`tiled` is modelled for any number of operands of the same shape (the two overloads are one and two operands).  A kernel is a function of the
number of the forked context it is run in (`none` for the parent context) and the operands; it returns a buffer and a view of it.  The tiles are run
in order: they share nothing but the read-only operands.  Element sizes are not modelled (all results have elements of type `β`), arithmetic on
`int64_t` does not overflow.
-/

namespace Spu.Model.Tiling

/-- an operand or a result: buffer and view -/
abbrev Nd (α : Type) : Type := Array α × View

/-- a kernel -/
abbrev Kernel (α β : Type) : Type := Option Nat → List (Nd α) → Option (Nd β)

/-- Search of the slicing dimension — mpc/utils/tiling_util.h:41-51; the extents are given from the innermost outwards.  Returns the dimension
    (`none` for -1) and the number of elements of one slice. -/
def findSlice (block : Nat) : List Nat → Nat → Option Nat × Nat
  | [], acc => (none, acc)
  | d :: ds, acc => if block < acc * d then (some ds.length, acc * d / d) else findSlice block ds (acc * d)

/-- Carry into the outer dimensions — mpc/utils/tiling_util.h:106-112 -/
def carryLoop (shape : List Nat) : Nat → List Nat → List Nat → Option (List Nat × List Nat)
  | 0, s, e => some (s, e)
  | dim + 1, s, e => do
    let d ← shape[dim]?
    let a ← s[dim]?
    let b ← e[dim]?
    if d = 0 then none
    else
      let b' := b % d + 1
      let s' := s.set dim ((a + 1) % d)
      let e' := e.set dim b'
      if b' ≠ 1 then some (s', e') else carryLoop shape dim s' e'

/-- Update of the indices — mpc/utils/tiling_util.h:102-119 -/
def nextSlice (shape : List Nat) (dim stride : Nat) (s e : List Nat) : Option (List Nat × List Nat) := do
  let d ← shape[dim]?
  let a ← s[dim]?
  let b ← e[dim]?
  if b = d then carryLoop shape dim (s.set dim 0) (e.set dim stride)
  else some (s.set dim (a + stride), e.set dim (if b + stride > d then d else b + stride))

/-- The sequence of slices — mpc/utils/tiling_util.h:88-120 -/
def slices (shape : List Nat) (dim stride : Nat) : Nat → List Nat → List Nat → Option (List (List Nat × List Nat))
  | 0, _, _ => some []
  | n + 1, s, e => do
    let (s', e') ← nextSlice shape dim stride s e
    let r ← slices shape dim stride n s' e'
    return (s, e) :: r

/-- the elements from the data pointer of a result on: the source of `std::memcpy` — mpc/utils/tiling_util.h:133-135 -/
def rawRead {β : Type} (r : Nd β) (n : Nat) : Option (List β) :=
  (List.range n).mapM fun (p : Nat) => rd r.1 (r.2.offset + (p : Int))

/-- one tile: slice every operand and run the kernel in a forked context — mpc/utils/tiling_util.h:91-98 -/
def runTile {α β : Type} (fn : Kernel α β) (ops : List (Nd α)) (i : Nat) (se : List Nat × List Nat) : Option (Nd β) := do
  let sub ← ops.mapM fun op => (op.2.slice se.1 se.2 none).map fun w => (op.1, w)
  fn (some i) sub

/-- `std::memcpy` of the results one after another — mpc/utils/tiling_util.h:130-137; writing more than the output holds is undefined -/
def gather {β : Type} (cap : Nat) : List (Nd β) → List β → Option (List β)
  | [], out => some out
  | r :: rs, out => do
    let xs ← rawRead r (numel r.2.shape)
    if cap < (out ++ xs).length then none else gather cap rs (out ++ xs)

/-- `tiled` — mpc/utils/tiling_util.h:30-140 and 142-256; `enabled` is the configuration switch and the protocol property.  The output buffer is
    uninitialised before the copies: a result that is not filled is `none`. -/
def tiled {α β : Type} (block : Nat) (enabled : Bool) (fn : Kernel α β) (x : Nd α) (ys : List (Nd α)) : Option (Nd β) :=
  let shape := x.2.shape
  if ys.any fun y => decide (y.2.shape ≠ shape) then none
  else if !enabled || numel shape ≤ block then fn none (x :: ys)
  else
    match findSlice block shape.reverse 1 with
    | (none, _) => none
    | (some dim, sliceNumel) =>
      if sliceNumel = 0 then none
      else
        let stride := block / sliceNumel
        if stride = 0 then fn none (x :: ys)
        else do
          let d ← shape[dim]?
          let numDim := d / stride + (if d % stride ≠ 0 then 1 else 0)
          let num := numel (shape.take dim)
          let start := List.replicate shape.length 0
          let stop := List.replicate dim 1 ++ (shape.drop dim).set 0 stride
          let ses ← slices shape dim stride (numDim * num) start stop
          let rs ← (ses.zipIdx).mapM fun (se, i) => runTile fn (x :: ys) i se
          let out ← gather (numel shape) rs []
          if out.length < numel shape then none
          else some (out.toArray, ⟨shape, makeCompactStrides shape, 0⟩)

end Spu.Model.Tiling

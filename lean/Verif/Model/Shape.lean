
set_option autoImplicit false
/-!
# Model of `core/shape.{h,cc}`

All paths relative to `/repo/src/libspu`.  Extents, indices and flat positions are natural numbers
(C++ uses `int64_t`; overflow of extents is not modelled, negative extents are not representable),
strides are integers.  `SPU_ENFORCE` failures and division by zero are `none`.
-/

namespace Spu

abbrev Shape := List Nat
abbrev Index := List Nat
abbrev Strides := List Int

namespace Model

/-- `Shape::numel` — core/shape.h:53-56 (`std::accumulate` with `multiplies`, init 1). -/
def numel (shape : Shape) : Nat := shape.foldl (· * ·) 1

/-- `Index::inBounds` — core/shape.cc:19-30.  Sizes must match, every coordinate must be below the extent
(the `< 0` test is vacuous for naturals). -/
def inBounds (index : Index) (bounds : Shape) : Bool :=
  index.length == bounds.length && (List.zipWith (fun i b => decide (i < b)) index bounds).all id

/-- First loop of `makeCompactStrides` — core/shape.cc:35-37: from the last axis to the first,
`strides[last] = 1`, `strides[d-1] = strides[d] * shape[d]`. -/
def compactStridesLoop : Shape → Strides
  | [] => []
  | [_] => [1]
  | _ :: d :: ds =>
    match compactStridesLoop (d :: ds) with
    | [] => [1]  -- unreachable: the recursive result is never empty
    | s :: ss => (s * d) :: s :: ss

/-- `makeCompactStrides` — core/shape.cc:32-46 (second loop: axes of extent 1 get stride 0). -/
def makeCompactStrides (shape : Shape) : Strides :=
  List.zipWith (fun d s => if d = 1 then 0 else s) shape (compactStridesLoop shape)

/-- Loop of `flattenIndex` — core/shape.cc:51-56: iterates from the last axis with accumulators
`(linear_idx, stride)`. -/
def flattenLoop (index : Index) (shape : Shape) : Nat × Nat :=
  (List.zip index shape).foldr (fun (i, d) (lin, stride) => (lin + i * stride, stride * d)) (0, 1)

/-- `flattenIndex` — core/shape.cc:48-58. -/
def flattenIndex (index : Index) (shape : Shape) : Option Nat :=
  if index.length = shape.length then some (flattenLoop index shape).1 else none

/-- Loop of `unflattenIndex` — core/shape.cc:62-65: from the last axis, `unflattened[idx] = index % shape[idx];
index /= shape[idx]`.  Returns the digits and the remaining quotient; `none` is the division by zero. -/
def unflattenLoop (pos : Nat) : Shape → Option (Index × Nat)
  | [] => some ([], pos)
  | d :: ds =>
    match unflattenLoop pos ds with
    | none => none
    | some (is, q) => if d = 0 then none else some ((q % d) :: is, q / d)

/-- `unflattenIndex` — core/shape.cc:60-67. -/
def unflattenIndex (pos : Nat) (shape : Shape) : Option Index :=
  (unflattenLoop pos shape).map Prod.fst

/-- `bumpIndices` — core/shape.h:155-169.  The C++ loop scans axes from last to first and increments the
first one (from the right) that can be incremented, zeroing everything after it; written here as a recursion
that tries the inner axes first.  `some idx'` is "returned true with the index updated to idx'",
`none` is "returned false" (index unchanged). -/
def bumpIndices : Shape → Index → Option Index
  | d :: ds, i :: is =>
    match bumpIndices ds is with
    | some is' => some (i :: is')
    | none => if i + 1 < d then some ((i + 1) :: List.replicate is.length 0) else none
  | _, _ => none

/-- Loop of `calcFlattenOffset` — core/shape.h:177-181. -/
def strideDot (index : Index) (strides : Strides) : Int :=
  (List.zip index strides).foldr (fun (i, s) acc => acc + (i : Int) * s) 0

/-- `calcFlattenOffset` — core/shape.h:171-182: empty strides with non-zero rank mean compact strides. -/
def calcFlattenOffset (index : Index) (shape : Shape) (strides : Strides) : Int :=
  if shape.length ≠ 0 ∧ strides = [] then strideDot index (makeCompactStrides shape)
  else strideDot index strides

end Model
end Spu

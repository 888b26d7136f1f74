import Verif.Model.Shape

set_option autoImplicit false

/-!
# Model of `core/ndarray_ref.{h,cc}`

A view is `(shape, strides, offset)`; the buffer is a separate array of elements.  Simplification: offsets are counted
in elements, not bytes (C++ offsets are always multiples of the element size), and the element type check is omitted
(all elements of the model buffer have the same type `α`).  Reading or writing outside the buffer, indexing a
`std::vector` out of range, dividing by zero, dereferencing a past-the-end iterator and a failed `SPU_ENFORCE`
are all `none`.
-/

namespace Spu.Model

/-- `NdArrayRef` data members without buffer and element type — core/ndarray_ref.h:38-54. -/
structure View where
  shape : Shape
  strides : Strides
  offset : Int
deriving DecidableEq, Repr

/-- `NdArrayRef` invariant kept by every constructor: one stride per axis. -/
def View.WF (v : View) : Prop := v.strides.length = v.shape.length

/-- Raw read of one element of the buffer (pointer dereference). -/
def rd {α : Type} (buf : Array α) (off : Int) : Option α :=
  if off < 0 then none else buf[off.toNat]?

/-- Raw write of one element (`std::memcpy` of `elsize` bytes to a pointer). -/
def wr {α : Type} (buf : Array α) (off : Int) (x : α) : Option (Array α) :=
  if off < 0 then none
  else if h : off.toNat < buf.size then some (buf.set off.toNat x) else none

/-- `NdArrayRef::at(Index)` — core/ndarray_ref.h:147-158 (element address). -/
def View.addr (v : View) (idx : Index) : Int := v.offset + calcFlattenOffset idx v.shape v.strides

/-- Reading `at(Index)`. -/
def View.get {α : Type} (buf : Array α) (v : View) (idx : Index) : Option α := rd buf (v.addr idx)

/-- Stripping of size-1 axes — core/ndarray_ref.cc:60-66 and 123-130. -/
def stripOnes : Shape → Strides → List (Nat × Int)
  | d :: ds, s :: ss => if d = 1 then stripOnes ds ss else (d, s) :: stripOnes ds ss
  | _, _ => []

/-- `can_use_fast_indexing` — core/ndarray_ref.cc:118-153. -/
def canUseFastIndexing (shape : Shape) (strides : Strides) : Bool × Int :=
  let st := stripOnes shape strides
  match st.getLast? with
  | none => (true, 0)
  | some (_, lin) =>
    let compact := makeCompactStrides (st.map Prod.fst)
    if (List.zipWith (fun c (ds : Nat × Int) => decide (lin * c = ds.2)) compact st).all id
    then (true, lin) else (false, 0)

/-- `NdArrayRef::at(int64_t)` — core/ndarray_ref.h:171-190 (element address). -/
def View.addrLin (v : View) (p : Nat) : Option Int :=
  let fi := canUseFastIndexing v.shape v.strides
  if fi.1 then some (v.offset + p * fi.2)
  else (unflattenIndex p v.shape).map v.addr

/-! ## reshape -/

/-- Inner loop of `attempt_nocopy_reshape` — core/ndarray_ref.cc:77-84: extend the current group of new axes (`gN`, product `np`)
or old axes (`gO`, product `op`) until the products agree.  Groups are accumulated in reverse.  Running off either
list is an out-of-range vector read (`none`). -/
def groupAxes (np op : Nat) (gN : List Nat) (gO : List (Nat × Int)) :
    List Nat → List (Nat × Int) → Option (List Nat × List (Nat × Int) × List Nat × List (Nat × Int))
  | N, O =>
    if np = op then some (gN, gO, N, O)
    else if np < op then
      match N with
      | [] => none
      | n :: N' => groupAxes (np * n) op (n :: gN) gO N' O
    else
      match O with
      | [] => none
      | o :: O' => groupAxes np (op * o.1) gN (o :: gO) N O'
  termination_by N O => N.length + O.length

/-- Contiguity check — core/ndarray_ref.cc:86-92 (group in source order). -/
def contiguous : List (Nat × Int) → Bool
  | a :: b :: rest => (a.2 == b.1 * b.2) && contiguous (b :: rest)
  | _ => true

/-- New strides of one group — core/ndarray_ref.cc:94-98: last axis gets `last`, going left multiply by extents. -/
def groupStrides (last : Int) : List Nat → Strides
  | [] => []
  | [_] => [last]
  | _ :: d :: ds =>
    match groupStrides last (d :: ds) with
    | [] => [last]  -- unreachable
    | s :: ss => (s * d) :: s :: ss

theorem groupAxes_length {np op gN gO N O r} (h : groupAxes np op gN gO N O = some r) :
    r.2.2.1.length ≤ N.length := by
  fun_induction groupAxes np op gN gO N O with
  | case1 => simp at h; subst h; simp
  | case2 => simp at h
  | case3 _ _ _ _ _ _ _ _ _ ih => have := ih h; simp; omega
  | case4 => simp at h
  | case5 _ _ _ _ _ _ _ _ _ ih => exact ih h

/-- Result of the copy-free attempt: `strides` found, `false` returned, or out-of-range access. -/
inductive Attempt where
  | ok (strides : Strides)
  | notContiguous
  | ub
deriving DecidableEq, Repr

/-- Outer loop of `attempt_nocopy_reshape` — core/ndarray_ref.cc:73-102.  Axes left over when the loop ends keep the
initial stride 0 (`Strides new_strides(to_shape.size(), 0)`, core/ndarray_ref.cc:280). -/
def nocopyLoop : List Nat → List (Nat × Int) → Attempt
  | [], _ => .ok []
  | N, [] => .ok (List.replicate N.length 0)
  | n :: N, o :: O =>
    match _h : groupAxes n o.1 [n] [o] N O with
    | none => .ub
    | some (gN, gO, N', O') =>
      if contiguous gO.reverse then
        match nocopyLoop N' O' with
        | .ok ss => .ok (groupStrides (gO.head?.elim 0 (·.2)) gN.reverse ++ ss)
        | r => r
      else .notContiguous
  termination_by N _ => N.length
  decreasing_by have := groupAxes_length _h; simp at this; simp; omega

/-- `attempt_nocopy_reshape` — core/ndarray_ref.cc:44-116 (final loop: size-1 axes get stride 0). -/
def attemptNocopyReshape (old : View) (newShape : Shape) : Attempt :=
  match nocopyLoop newShape (stripOnes old.shape old.strides) with
  | .ok ss => .ok (List.zipWith (fun d s => if d = 1 then 0 else s) newShape ss)
  | r => r

/-! ## Iterator -/

/-- `NdArrayRef::Iterator` — core/ndarray_ref.h:192-285 (members; `index = none` is the end marker). -/
structure Iter where
  shape : Shape
  strides : Strides
  index : Option Index
  ptr : Int

/-- Flattening done by the iterator constructors for fast-indexable arrays — core/ndarray_ref.h:210-219: strides of
`array.reshape({numel})`.  `reshape` falls back to a compact copy when the attempt fails (then strides are those of
the compact copy although the pointer is still into the original buffer). -/
def flatStrides (v : View) : Option (Shape × Strides) :=
  let n := numel v.shape
  if v.shape = [n] then some (v.shape, v.strides)
  else if n = 0 then some ([0], makeCompactStrides [0])
  else match attemptNocopyReshape v [n] with
    | .ok ss => some ([n], ss)
    | .notContiguous => some ([n], makeCompactStrides [n])
    | .ub => none

/-- `Iterator(array, index)` — core/ndarray_ref.h:205-230. -/
def Iter.mk' (v : View) (idx : Index) : Option Iter :=
  let fast := (canUseFastIndexing v.shape v.strides).1
  match (if fast then flatStrides v else some (v.shape, v.strides)) with
  | none => none
  | some (sh, st) =>
    if inBounds idx v.shape then
      some { shape := sh, strides := st, ptr := v.addr idx,
             index := if fast then (flattenIndex idx v.shape).map (fun p => [p]) else some idx }
    else some { shape := sh, strides := st, ptr := 0, index := none }

/-- Loop of `Iterator::operator++` — core/ndarray_ref.cc:559-569: returns (ran off the first axis, index, ptr). -/
def iterStep : Shape → Strides → Index → Int → Bool × Index × Int
  | d :: ds, s :: ss, i :: is, p =>
    let (carry, is', p') := iterStep ds ss is p
    if carry then
      if i + 1 = d then (true, 0 :: is', p' - ((d : Int) - 1) * s)
      else (false, (i + 1) :: is', p' + s)
    else (false, i :: is', p')
  | _, _, _, p => (true, [], p)

/-- `Iterator::operator++` — core/ndarray_ref.cc:556-578. -/
def Iter.next (it : Iter) : Iter :=
  match it.index with
  | none => it
  | some idx =>
    match iterStep it.shape it.strides idx it.ptr with
    | (true, _, _) => { it with index := none, ptr := 0 }
    | (false, idx', p') => { it with index := some idx', ptr := p' }

/-- `Iterator::operator*` — core/ndarray_ref.h:235-240: dereferencing the end iterator is a null dereference. -/
def Iter.deref (it : Iter) : Option Int := it.index.map (fun _ => it.ptr)

/-- `begin()` — core/ndarray_ref.h:287. -/
def View.begin (v : View) : Option Iter := Iter.mk' v (List.replicate v.shape.length 0)

/-- Reading loop used by `clone` (core/ndarray_ref.cc:216-218) and `copy_slice`: read `n` elements in iteration order. -/
def iterRead {α : Type} (buf : Array α) (it : Iter) : Nat → Option (List α)
  | 0 => some []
  | n + 1 => do
    let p ← it.deref
    let x ← rd buf p
    let rest ← iterRead buf it.next n
    return x :: rest

/-- `clone` — core/ndarray_ref.cc:207-221: new buffer, row-major elements, compact strides. -/
def View.clone {α : Type} (buf : Array α) (v : View) : Option (Array α × View) := do
  let it ← v.begin
  let xs ← iterRead buf it (numel v.shape)
  return (xs.toArray, ⟨v.shape, makeCompactStrides v.shape, 0⟩)

/-- `reshape` — core/ndarray_ref.cc:265-288; returns the buffer the result refers to and the view. -/
def View.reshape {α : Type} (buf : Array α) (v : View) (tgt : Shape) : Option (Array α × View) :=
  if v.shape = tgt then some (buf, v)
  else if numel v.shape ≠ numel tgt then none
  else if numel tgt = 0 then some (buf, ⟨tgt, makeCompactStrides tgt, v.offset⟩)
  else match attemptNocopyReshape v tgt with
    | .ok ss => some (buf, ⟨tgt, ss, v.offset⟩)
    | .ub => none
    | .notContiguous => (v.clone buf).map fun (b, _) => (b, ⟨tgt, makeCompactStrides tgt, 0⟩)

/-! ## Views -/

/-- Per-axis step of `slice` — core/ndarray_ref.cc:300-316.  `step = none` models empty `slice_strides`.
Returns (new extent, new stride). -/
def sliceAxis (d : Nat) (st : Int) (b e : Nat) (step : Option Nat) : Option (Nat × Int) :=
  if e > d then none
  else
    let n := e - b  -- max(end - start, 0)
    if n = 1 then some (1, 0)
    else match step with
      | none => some (n, st)
      | some k =>
        if k = 0 then none
        else some (n / k + (if n % k ≠ 0 then 1 else 0), st * k)

/-- Loop of `slice` over axes. -/
def sliceAxes : Shape → Strides → Index → Index → Option (List Nat) → Option (List (Nat × Int))
  | [], [], [], [], none => some []
  | [], [], [], [], some [] => some []
  | d :: ds, s :: ss, b :: bs, e :: es, none => do
    let a ← sliceAxis d s b e none
    let r ← sliceAxes ds ss bs es none
    return a :: r
  | d :: ds, s :: ss, b :: bs, e :: es, some (k :: ks) => do
    let a ← sliceAxis d s b e (some k)
    let r ← sliceAxes ds ss bs es (some ks)
    return a :: r
  | _, _, _, _, _ => none

/-- `slice` — core/ndarray_ref.cc:290-319.  Start/end/step are naturals (a negative start is not checked by the code
and not modelled).  The new offset is the address of `start_indices`. -/
def View.slice (v : View) (start stop : Index) (steps : Option (List Nat)) : Option View :=
  (sliceAxes v.shape v.strides start stop steps).map fun r =>
    ⟨r.map Prod.fst, r.map Prod.snd, v.addr start⟩

/-- `slice_scalar_at` — core/ndarray_ref.cc:321-324. -/
def View.sliceScalarAt (v : View) (idx : Index) : View := ⟨[], [], v.addr idx⟩

/-- `transpose(perm)` — core/ndarray_ref.cc:333-347.  `perm[i]` out of range would be a vector overrun (`none`). -/
def View.transpose (v : View) (perm : List Nat) : Option View :=
  if perm.length ≠ v.shape.length then none
  else if ¬ perm.Nodup then none
  else do
    let sh ← perm.mapM (fun a => v.shape[a]?)
    let st ← perm.mapM (fun a => v.strides[a]?)
    return ⟨sh, st, v.offset⟩

/-- `reverse` — core/ndarray_ref.cc:349-361.  The loop negates the (new) stride and adds the extent of the original
axis to the offset. -/
def View.reverse (v : View) (dims : List Nat) : Option View :=
  dims.foldlM (init := v) fun (acc : View) a => do
    let ns ← acc.strides[a]?
    let s ← v.strides[a]?
    let d ← v.shape[a]?
    return ⟨acc.shape, acc.strides.set a (ns * -1), acc.offset + s * ((d : Int) - 1)⟩

/-- `broadcast_to` — core/ndarray_ref.cc:240-263.  `inDims = []` means right-aligned. -/
def View.broadcastTo (v : View) (tgt : Shape) (inDims : List Nat) : Option View :=
  if ¬ inDims.all (· < tgt.length) then none
  else if inDims ≠ [] then do
    let st ← (inDims.zipIdx).foldlM (init := List.replicate tgt.length (0 : Int)) fun acc (a, k) => do
      let s ← v.strides[k]?
      return acc.set a s
    return ⟨tgt, st, v.offset⟩
  else if v.strides.length > tgt.length then none
  else some ⟨tgt, List.replicate (tgt.length - v.strides.length) 0 ++ v.strides, v.offset⟩

end Spu.Model

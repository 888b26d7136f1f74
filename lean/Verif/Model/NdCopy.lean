import Verif.Model.NdArray

set_option autoImplicit false

/-!
# Model of the element-copying operations of `core/ndarray_ref.cc`

Same conventions as `Verif.Model.NdArray`.  A fresh buffer holds unspecified elements, here an arbitrary `junk`.
-/

namespace Spu.Model

/-- Copy loop of `copy_slice` — core/ndarray_ref.cc:228-237. -/
def copySliceLoop {α : Type} (sbuf : Array α) : Nat → Iter → Iter → Array α → Option (Array α)
  | 0, _, _, d => some d
  | n + 1, si, di, d => do
    let p ← si.deref
    let x ← rd sbuf p
    let q ← di.deref
    let d' ← wr d q x
    copySliceLoop sbuf n si.next di.next d'

/-- `copy_slice` — core/ndarray_ref.cc:223-238; returns the destination buffer. -/
def copySlice {α : Type} (sbuf : Array α) (src : View) (dbuf : Array α) (dst : View) (srcBase dstBase : Index)
    (n : Nat) : Option (Array α) := do
  let si ← Iter.mk' src srcBase
  let di ← Iter.mk' dst dstBase
  copySliceLoop sbuf n si di dbuf

/-- The copies of `concatenate` — core/ndarray_ref.cc:393-409.  The copy of `*this` is the first iteration:
`slice_end` starts as its shape, which is `stop` (with 0 on the axis) advanced by its extent. -/
def concatLoop {α : Type} (R : View) (axis : Nat) (base : Index) :
    List (Array α × View) → Index → Index → Array α → Option (Array α)
  | [], _, _, buf => some buf
  | o :: os, start, stop, buf => do
    let e ← o.2.shape[axis]?
    let e0 ← stop[axis]?
    let stop' := stop.set axis (e0 + e)
    let w ← R.slice start stop' (some (List.replicate R.shape.length 1))
    let buf' ← copySlice o.1 o.2 buf w base base (numel o.2.shape)
    concatLoop R axis base os (start.set axis (e0 + e)) stop' buf'

/-- `concatenate` — core/ndarray_ref.cc:383-412. -/
def concatenate {α : Type} (junk : α) (self : Array α × View) (others : List (Array α × View)) (axis : Nat) :
    Option (Array α × View) := do
  let exts ← (self :: others).mapM (fun o => o.2.shape[axis]?)
  let shp := self.2.shape.set axis exts.sum
  let R : View := ⟨shp, makeCompactStrides shp, 0⟩
  let rank := self.2.shape.length
  let buf ← concatLoop R axis (List.replicate rank 0) (self :: others) (List.replicate rank 0)
    (self.2.shape.set axis 0) (Array.replicate (numel shp) junk)
  return (buf, R)

/-- Doubling loop of `expand` — core/ndarray_ref.cc:374-379, in elements instead of bytes.  `copied ≠ n` with
`copied > n` never stops and writes outside the buffer (`none`). -/
def expandLoop {α : Type} (n : Nat) : Nat → Nat → Array α → Option (Array α)
  | 0, _, _ => none
  | fuel + 1, copied, buf =>
    if copied = n then some buf
    else if copied > n then none
    else
      let cs := min copied (n - copied)
      -- memcpy(ret + copied, ret, cs)
      let buf' := Array.ofFn (n := buf.size) fun i =>
        if copied ≤ i.val ∧ i.val < copied + cs then (buf[i.val - copied]?).getD buf[i] else buf[i]
      expandLoop n fuel (copied + cs) buf'

/-- `expand` — core/ndarray_ref.cc:363-381. -/
def expand {α : Type} (junk : α) (sbuf : Array α) (v : View) (tgt : Shape) : Option (Array α × View) :=
  if numel v.shape ≠ 1 then none
  else do
    let x ← rd sbuf v.offset
    let buf0 ← wr (Array.replicate (numel tgt) junk) 0 x
    let buf ← expandLoop (numel tgt) (numel tgt + 1) 1 buf0
    return (buf, ⟨tgt, makeCompactStrides tgt, 0⟩)

/-- `deducePadShape` — core/ndarray_ref.cc:26-40.  A negative extent is not a shape (`none`). -/
def deducePadShape : Shape → List Int → List Int → List Nat → Option Shape
  | [], [], [], [] => some []
  | d :: ds, l :: ls, h :: hs, k :: ks => do
    let e : Int := l + h + (k : Int) * ((d : Int) - 1) + (d : Int)
    let r ← deducePadShape ds ls hs ks
    if e < 0 then none else return e.toNat :: r
  | _, _, _, _ => none

/-- Target index of `pad` — core/ndarray_ref.cc:430-443: `none` inside is "not valid, skip". -/
def padTarget : Shape → List Int → List Nat → Index → Option Index
  | d :: ds, l :: ls, k :: ks, i :: is =>
    let t : Int := l + (i : Int) * ((k : Int) + 1)
    if t < 0 ∨ (d : Int) ≤ t then none
    else (padTarget ds ls ks is).map (t.toNat :: ·)
  | _, _, _, _ => some []

/-- One iteration of `pad` — core/ndarray_ref.cc:429-446. -/
def padStep {α : Type} (sbuf : Array α) (v : View) (R : View) (low : List Int) (interior : List Nat) (idx : Index)
    (buf : Array α) : Option (Array α) :=
  match padTarget R.shape low interior idx with
  | none => some buf
  | some t => do
    let x ← v.get sbuf idx
    wr buf (R.addr t) x

/-- Body of the `pforeach` of `pad` for `n` elements from `idx` on — core/ndarray_ref.cc:427-448. -/
def padLoop {α : Type} (sbuf : Array α) (v : View) (R : View) (low : List Int) (interior : List Nat) :
    Nat → Index → Array α → Option (Array α)
  | 0, _, buf => some buf
  | n + 1, idx, buf => do
    let buf' ← padStep sbuf v R low interior idx buf
    padLoop sbuf v R low interior n ((bumpIndices v.shape idx).getD idx) buf'

/-- `pad` — core/ndarray_ref.cc:414-452.  `ranges` are the sub-ranges `[begin, end)` of `[0, numel)` that `pforeach`
hands to the body, in the order in which they happen to run. -/
def pad {α : Type} (junk : α) (ranges : List (Nat × Nat)) (sbuf : Array α) (v : View) (pbuf : Array α) (pv : View)
    (low high : List Int) (interior : List Nat) : Option (Array α × View) := do
  let shp ← deducePadShape v.shape low high interior
  let (buf, R) ← expand junk pbuf pv shp
  let buf' ← ranges.foldlM (init := buf) fun b r => do
    let idx ← unflattenIndex r.1 v.shape
    padLoop sbuf v R low interior (r.2 - r.1) idx b
  return (buf', R)

/-- `linear_gather` — core/ndarray_ref.cc:454-471 (indices are naturals). -/
def linearGather {α : Type} (buf : Array α) (v : View) (indices : List Nat) : Option (Array α × View) :=
  match v.shape, v.strides with
  | [_], [s] => do
    let xs ← indices.mapM (fun (i : Nat) => rd buf (v.offset + (i : Int) * s))
    return (xs.toArray, ⟨[xs.length], makeCompactStrides [xs.length], 0⟩)
  | _, _ => none

/-- Loop of `linear_scatter` — core/ndarray_ref.cc:485-489. -/
def scatterLoop {α : Type} (nbuf : Array α) (off : Int) (s : Int) : List Nat → Iter → Array α → Option (Array α)
  | [], _, d => some d
  | i :: is, it, d => do
    let p ← it.deref
    let x ← rd nbuf p
    let d' ← wr d (off + (i : Int) * s) x
    scatterLoop nbuf off s is it.next d'

/-- `linear_scatter` — core/ndarray_ref.cc:473-492; returns the updated buffer of `*this`. -/
def linearScatter {α : Type} (buf : Array α) (v : View) (nbuf : Array α) (nv : View) (indices : List Nat) :
    Option (Array α) :=
  match v.shape, v.strides with
  | [_], [s] => do
    let it ← nv.begin
    scatterLoop nbuf v.offset s indices it buf
  | _, _ => none

/-- `eliminate_zero_stride` — core/ndarray_ref.cc:494-513. -/
def eliminateZeroStride {α : Type} (buf : Array α) (v : View) : Option (Array α × View) :=
  if (List.zipWith (fun d s => decide (d ≠ 1 ∧ s = 0)) v.shape v.strides).any id then v.clone buf
  else some (buf, v)

/-- `update_slice` — core/ndarray_ref.cc:515-554; the new value lives in another buffer.  Returns the buffer and view
`*this` refers to afterwards. -/
def updateSlice {α : Type} (buf : Array α) (v : View) (nbuf : Array α) (nv : View) (start : Index) :
    Option (Array α × View) :=
  if numel nv.shape = 0 then some (buf, v)
  else do
    let (b, u) ← eliminateZeroStride buf v
    if numel nv.shape = 1 then
      let it ← Iter.mk' u start
      let q ← it.deref
      let x ← rd nbuf nv.offset
      let b' ← wr b q x
      return (b', u)
    else
      let stop := List.zipWith (· + ·) start nv.shape
      let w ← u.slice start stop (some (List.replicate start.length 1))
      let b' ← copySlice nbuf nv b w (List.replicate nv.shape.length 0) (List.replicate w.shape.length 0)
        (numel nv.shape)
      return (b', u)

end Spu.Model

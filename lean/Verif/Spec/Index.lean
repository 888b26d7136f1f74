
set_option autoImplicit false
/-!
# Specification of row-major indexing (independent of the model)

`InB idx shape`  : idx has one coordinate per axis, each below the extent.
`size shape`     : number of in-bounds indices (product of extents).
`pos idx shape`  : row-major position: outer coordinate times size of the inner block plus inner position.
-/

namespace Spu.Spec

/-- idx is a valid index into an array of that shape. -/
inductive InB : List Nat → List Nat → Prop
  | nil : InB [] []
  | cons {i d : Nat} {is ds : List Nat} : i < d → InB is ds → InB (i :: is) (d :: ds)

/-- Number of elements. -/
def size : List Nat → Nat
  | [] => 1
  | d :: ds => d * size ds

/-- Row-major position. -/
def pos : List Nat → List Nat → Nat
  | i :: is, _ :: ds => i * size ds + pos is ds
  | _, _ => 0

end Spu.Spec

namespace Spu.Spec

/-- `start + i * step`, coordinate-wise. -/
def affine : List Nat → List Nat → List Nat → List Nat
  | b :: bs, k :: ks, i :: is => (b + i * k) :: affine bs ks is
  | _, _, _ => []

/-- Extents of a strided slice: `ceil((stop - start) / step)` per axis. -/
def sliceShape : List Nat → List Nat → List Nat → List Nat
  | b :: bs, e :: es, k :: ks => ((e - b + (k - 1)) / k) :: sliceShape bs es ks
  | _, _, _ => []

/-- Mirror the coordinates of the axes listed in `dims`. -/
def mirror (dims shape idx : List Nat) : List Nat :=
  (List.range idx.length).map fun a =>
    if a ∈ dims then shape.getD a 0 - 1 - idx.getD a 0 else idx.getD a 0

/-- Coordinates of `idx` in the order given by `perm`: result axis `k` is source axis `perm[k]`. -/
def permuted (perm idx : List Nat) : List Nat := perm.map fun a => idx.getD a 0

/-- Source index of a broadcast: source axis `k` (extent `shape[k]`) is mapped to result axis `dims[k]`;
a size-1 source axis is always read at 0. -/
def bcastSrc (dims shape idx : List Nat) : List Nat :=
  List.zipWith (fun a d => if d = 1 then 0 else idx.getD a 0) dims shape

end Spu.Spec

namespace Spu.Spec

/-- Move an index by `s` along one axis. -/
def shiftAxis (axis s : Nat) (i : List Nat) : List Nat := i.set axis (i.getD axis 0 + s)

/-- Operand index `i` lands on result index `j` when every coordinate is `low + i * (interior + 1)`. -/
inductive PadHit : List Int → List Nat → List Nat → List Nat → Prop
  | nil : PadHit [] [] [] []
  | cons {l : Int} {k i j : Nat} {ls : List Int} {ks is js : List Nat} :
      (j : Int) = l + (i : Int) * ((k : Int) + 1) → PadHit ls ks is js → PadHit (l :: ls) (k :: ks) (i :: is) (j :: js)

end Spu.Spec

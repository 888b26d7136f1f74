import Verif.Spec.Index

set_option autoImplicit false

/-!
# What dynamic slices and updates mean

`dynamic_slice` and `dynamic_update_slice` of the StableHLO specification: the start indices are adjusted so that the slice fits.
-/

namespace Spu.Spec

/-- `clamp(0, v, hi)` -/
def clampTo (hi : Nat) (v : Int) : Nat := (min (max v 0) (hi : Int)).toNat

/-- the adjusted start of a slice of the given sizes of a tensor of the given shape -/
def dynStart : List Nat → List Nat → List Int → List Nat
  | d :: ds, s :: ss, v :: vs => clampTo (d - s) v :: dynStart ds ss vs
  | _, _, _ => []

/-- place `o` of the slice that begins at `b` -/
def shift (b o : List Nat) : List Nat := List.zipWith (· + ·) b o

/-- a slice of these sizes fits into the shape -/
inductive SliceFits : List Nat → List Nat → Prop
  | nil : SliceFits [] []
  | cons {d s : Nat} {ds ss : List Nat} : s ≤ d → SliceFits ds ss → SliceFits (d :: ds) (s :: ss)

end Spu.Spec

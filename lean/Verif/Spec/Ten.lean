import Verif.Spec.Index

set_option autoImplicit false

/-! # All indices of a shape, windows, folds -/

namespace Spu.Spec

/-- the indices of a shape, in row-major order -/
def allIdx : List Nat → List (List Nat)
  | [] => [[]]
  | d :: ds => (List.range d).flatMap fun i => (allIdx ds).map (i :: ·)

/-- place `w` of window number `n`: `n * stride + w * dilation`, coordinate-wise -/
def winAt : List Nat → List Nat → List Nat → List Nat → List Nat
  | s :: ss, d :: ds, n :: ns, w :: ws => (n * s + w * d) :: winAt ss ds ns ws
  | _, _, _, _ => []

/-- `N` windows of extent `W` with stride `S` and dilation `D` fit into `B`, and no more: per axis `N` is the largest number
with `(N - 1) * S + (W - 1) * D + 1 ≤ B`, and it is not zero -/
inductive Windows : List Nat → List Nat → List Nat → List Nat → List Nat → Prop
  | nil : Windows [] [] [] [] []
  | cons {b w s d n : Nat} {B W S D N : List Nat} : 0 < w → 0 < s → 0 < d → 0 < n → (n - 1) * s + (w - 1) * d + 1 ≤ b →
      b < n * s + (w - 1) * d + 1 → Windows B W S D N → Windows (b :: B) (w :: W) (s :: S) (d :: D) (n :: N)

/-- the base is covered exactly: the last place of the last window is its last element -/
def Covered (B W S N : List Nat) : Prop :=
  B = (winAt S (List.replicate W.length 1) (N.map (· - 1)) (W.map (· - 1))).map (· + 1)

/-- the coordinates of the axes that are not in `dims` -/
def rest (dims i : List Nat) : List Nat := ((List.range i.length).filter fun a => decide (a ∉ dims)).map fun a => i.getD a 0

/-- the shape with extent 1 on the axes in `dims` -/
def keepDims (dims shape : List Nat) : List Nat :=
  (List.range shape.length).map fun a => if a ∈ dims then 1 else shape.getD a 0

/-- the indices whose coordinates on the axes outside `dims` are `q` -/
def fibre (dims shape q : List Nat) : List (List Nat) := (allIdx shape).filter fun i => decide (rest dims i = q)

/-- the left fold of a list that is not empty -/
def foldAll {α : Type} (op : α → α → α) : List α → Option α
  | [] => none
  | x :: xs => some (xs.foldl op x)

end Spu.Spec

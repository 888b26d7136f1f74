import Verif.Model.CheetahCmp

set_option autoImplicit false

/-!
# Model of `mpc/cheetah/nonlinear/truncate_prot.cc` and of the kernels in `mpc/cheetah/arithmetic.cc` that use it, the comparison and the equality

Both parties together, on flat arrays, as in `Model/CheetahOt.lean`.  The kernels hand the array to the protocols in tiles (`TiledDispatchOTFunc`);
that tiling does not change the result is C36 and is left out here.  Shifting a word by its width or more is undefined: `none`.
-/

namespace Spu.Model.CheetahTrunc
open Spu.Model.Circ Spu.Model.CheetahZip Spu.Model.CheetahOt Spu.Model.CheetahCmp

/-- `SignType` -/
inductive Sign where
  | unknown
  | positive
  | negative
  deriving DecidableEq

/-- `TruncateProtocol::Meta` — truncate_prot.h:43-48 -/
structure Meta where
  sign : Sign
  signed : Bool
  shift : ℕ
  heur : Bool

variable {σ : Type} {w : ℕ} (ot : Ot σ w) (junk : ℕ → ℕ → Share w)

/-- the top bit of a word, as the code takes it -/
def top (v : BitVec w) : BitVec w := v >>> (w - 1) &&& 1

/-- `MSB1ToWrap` — truncate_prot.cc:87-120 -/
def msb1ToWrap (shift n : ℕ) (x : Share w) : M σ (Share w) := do
  let (s, r) ← ot.camcc 0 shift n (fun i => top (x 0 i)) (fun i => (top (x 1 i)).setWidth 8)
  return fun p i => if p = 0 then -s i else r i

/-- `MSB0ToWrap` — truncate_prot.cc:135-191 -/
def msb0ToWrap (shift n : ℕ) (x : Share w) : M σ (Share w) := do
  let rnd ← ot.randBit n
  let r ← ot.cmcc 0 2 1 n (fun m => if m % 2 = 0 then (rnd (m / 2) ^^^ top (x 0 (m / 2))).setWidth 8 else (rnd (m / 2) ^^^ 1).setWidth 8)
    (fun i => (top (x 1 i)).setWidth 8)
  b2aSized ot shift n fun p i => if p = 0 then rnd i else (r i &&& 1).setWidth w

/-- `ComputeWrap` — truncate_prot.cc:32-79; the comparison has its default radix of four -/
def computeWrap (m : Meta) (n : ℕ) (x : Share w) : M σ (Share w) :=
  match m.sign with
  | .positive => if m.signed then msb1ToWrap ot m.shift n x else msb0ToWrap ot m.shift n x
  | .negative => if m.signed then msb0ToWrap ot m.shift n x else msb1ToWrap ot m.shift n x
  | .unknown => do
    let b ← cmpProt ot junk 4 0 n true fun p i => if p = 0 then x 0 i else -x 1 i - 1
    b2aSized ot m.shift n b

/-- the part of `Compute` after the heuristic — truncate_prot.cc:244-296 -/
def truncCore (m : Meta) (n : ℕ) (x : Share w) : M σ (Share w) := do
  let component := (1 : BitVec w) <<< (w - 1)
  let x' : Share w := fun p i => if m.signed && decide (p = 0) then x p i + component else x p i
  let wrap ← computeWrap ot junk m n x'
  let u := (1 : BitVec w) <<< (w - m.shift - 1)
  return fun p i =>
    let o := x' p i >>> m.shift - wrap p i <<< (w - m.shift)
    let o := if m.signed && decide (p = 0) then o - u else o
    if p = 0 then o + (o &&& 1) else o

/-- `TruncateProtocol::Compute` — truncate_prot.cc:193-297 -/
def trunc (m : Meta) (n : ℕ) (x : Share w) : M σ (Share w) :=
  if m.shift = 0 then pure x
  else do
    enforce (decide (m.shift < w))
    if m.signed && decide (m.sign = .unknown) && m.heur then do
      -- shift amounts `bit_width - kHeuristicBound` and `bit_width - kHeuristicBound - shift`
      enforce (decide (m.shift + 2 ≤ w))
      let big := (1 : BitVec w) <<< (w - 2)
      let z ← truncCore ot junk { m with sign := .positive, heur := false } n fun p i => if p = 0 then x 0 i + big else x p i
      let big' := (1 : BitVec w) <<< (w - 2 - m.shift)
      return fun p i => if p = 0 then z 0 i - big' else z p i
    else truncCore ot junk m n x

/-- `TruncA` — arithmetic.cc:36-56 -/
def truncA (bits : ℕ) (sign : Sign) (n : ℕ) (x : Share w) : M σ (Share w) :=
  if n = 0 then pure fun _ _ => 0 else trunc ot junk ⟨sign, true, bits, true⟩ n x

/-- `MsbA2B` — arithmetic.cc:63-106 -/
def msbA2B (nbits n : ℕ) (x : Share w) : M σ (Share w) := do
  let nbits := if nbits = 0 then w else nbits
  let shft := nbits - 1
  enforce (decide (nbits ≤ w))
  if n = 0 then return fun _ _ => 0
  let mask := (1 : BitVec w) <<< shft - 1
  let c ← cmpProt ot junk 4 0 n true fun p i => if p = 0 then x 0 i &&& mask else (mask - x 1 i) &&& mask
  return fun p i => c p i ^^^ x p i >>> shft

/-- `EqualAA` — arithmetic.cc:120-153 -/
def equalAA (nbits n : ℕ) (x y : Share w) : M σ (Share w) := do
  let nbits := if nbits = 0 then w else nbits
  enforce (decide (nbits ≤ w))
  if n = 0 then return fun _ _ => 0
  eqProt ot 4 nbits n fun p i => if p = 0 then x 0 i - y 0 i else y 1 i - x 1 i

/-- `EqualAP` — arithmetic.cc:108-118 -/
def equalAP (nbits n : ℕ) (x : Share w) (y : ℕ → BitVec w) : M σ (Share w) :=
  equalAA ot nbits n x fun p i => if p = 0 then 0 else y i

/-- `MulA1B` — arithmetic.cc:155-171 -/
def mulA1B (n : ℕ) (a b : Share w) : M σ (Share w) :=
  if n = 0 then pure fun _ _ => 0 else multiplexer ot n a b

/-- `MulA1BV` — arithmetic.cc:173-206 -/
def mulA1BV (owner : Fin 2) (n : ℕ) (a : Share w) (b : ℕ → BitVec w) : M σ (Share w) :=
  if n = 0 then pure fun _ _ => 0 else privateMulx ot owner n a b

/-- `AndBB` — boolean.cc:23-39; `nbits` is the declared bit count of the left operand -/
def andBB (nbits n : ℕ) (a b : Share w) : M σ (Share w) :=
  if n = 0 then pure fun _ _ => 0 else bitwiseAnd ot nbits n a b

/-- `B2A` — conversion.cc:60-73 -/
def b2aKernel (nbits n : ℕ) (x : Share w) : M σ (Share w) :=
  if n = 0 then pure fun _ _ => 0 else b2a ot nbits n x

end Spu.Model.CheetahTrunc

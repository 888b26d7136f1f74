import Verif.Model.CheetahDotOLE

set_option autoImplicit false

/-!
# Cheetah's two-dimensional convolution on polynomials

(`mpc/cheetah/arith/conv2d_prot.cc`, `mpc/cheetah/arith/conv2d_helper.{h,cc}`, `mpc/cheetah/arith/tensor_encoder.cc`)

As for the matrix products (`Model/CheetahDot.lean`), a ciphertext is what it decrypts to, a polynomial modulo `X^N + 1` over a
commutative ring, and the dyadic product of transformed polynomials is their product; noise is not modelled here.  Tensors are
functions of the position in the order of the code: `H x W x C` for inputs, `H x W x I x O` for kernels.  Extents are natural
numbers, without overflow.  `none` is an exception, a division by zero or an access out of bounds.
-/

namespace Spu.Model.Cconv
open Spu.Spec.Nega Spu.Model.Cmul Spu.Model.Cdot Spu.Model.Ms

/-- `Shape3D` -/
structure Sh3 where
  h : ℕ
  w : ℕ
  c : ℕ
deriving DecidableEq, Repr

/-- `calcNumel` -/
def Sh3.numel (s : Sh3) : ℕ := s.h * s.w * s.c

/-- `Conv2DProtocol::Meta` (`conv2d_prot.h:31-37`) -/
structure Meta where
  batch : ℕ
  kernels : ℕ
  inp : Sh3
  ker : Sh3
  sh : ℕ
  sw : ℕ
deriving DecidableEq, Repr

/-- `IsValidMeta` (`conv2d_prot.cc:164-179`) -/
def validMeta (N : ℕ) (m : Meta) : Bool := decide (m.inp.c = m.ker.c ∧ m.kernels ≠ 0 ∧ m.ker.h * m.ker.w ≤ N)

/-- `IsValidSubShape` (`conv2d_prot.cc:66-69`) -/
def validSub (N : ℕ) (s : Sh3) : Bool := decide (0 < s.numel ∧ s.numel ≤ N)

/-! ## The shape of blocks -/

/-- `cost < min_cost`, where `none` is the initial bound -/
def cheaper (x : ℕ) : Option ℕ → Bool
  | none => true
  | some c => decide (x < c)

/-- one turn of the innermost loop (`conv2d_prot.cc:125-143`) -/
def tryShape (N : ℕ) (m : Meta) (st : Option ℕ × Sh3) (s : Sh3) : Option ℕ × Sh3 :=
  if s.c * s.h * s.w > N then st
  else
    let cost := cdiv m.inp.c s.c * (cdiv m.inp.h s.h * cdiv m.inp.w s.w * m.batch)
    if cheaper cost st.1 then (some cost, s) else st

/-- the loops over shapes (`conv2d_prot.cc:122-125`) -/
def shapes (m : Meta) (cw : ℕ) : List Sh3 :=
  (List.range (min cw m.inp.c)).flatMap fun c => (List.range m.inp.h).flatMap fun h =>
    (List.range m.inp.w).map fun w => ⟨h + 1, w + 1, c + 1⟩

/-- `GetSubTensorShape` without the table (`conv2d_prot.cc:107-152`) -/
def subShape (N : ℕ) (m : Meta) : Option Sh3 :=
  if m.ker.h * m.ker.w = 0 then none
  else
    let cw := N / (m.ker.h * m.ker.w)
    if m.inp.c = m.ker.c ∧ 0 < cw then
      if m.inp.h * m.inp.w ≤ N then
        if m.inp.h * m.inp.w = 0 then none
        else
          let s : Sh3 := ⟨m.inp.h, m.inp.w, min cw (min (N / (m.inp.h * m.inp.w)) m.inp.c)⟩
          if s.numel ≤ N then some s else none
      else
        let s := ((shapes m cw).foldl (tryShape N m) (none, m.inp)).2
        if s.numel ≤ N then some s else none
    else none

/-- `GetSubTensorShape` with the table, which is `static` and so shared by all instances (`conv2d_prot.cc:95-154`) -/
def subShapeMemo (N : ℕ) (m : Meta) (memo : Meta → Option Sh3) : Option (Sh3 × (Meta → Option Sh3)) :=
  match memo m with
  | some s => some (s, memo)
  | none => (subShape N m).map fun s => (s, Function.update memo m (some s))

/-! ## Slices -/

/-- `Conv2DHelper`: the extents, the windows and the numbers of windows -/
structure Helper2 where
  m : Meta
  sub : Sh3
  win : Sh3
  slices : Sh3
deriving DecidableEq, Repr

/-- `Conv2DHelper::Conv2DHelper` (`conv2d_helper.cc:94-113`).  A window that is not positive is a division by zero when the block is
smaller than the kernel by one; the model has no result for all smaller blocks. -/
def mkHelper (m : Meta) (s : Sh3) : Option Helper2 :=
  if 0 < s.h ∧ s.h ≤ m.inp.h ∧ 0 < s.w ∧ s.w ≤ m.inp.w ∧ 0 < s.c ∧ s.c ≤ m.inp.c then
    if s.h + 1 ≤ m.ker.h ∨ s.w + 1 ≤ m.ker.w then none
    else
      let wh := s.h - (m.ker.h - 1)
      let ww := s.w - (m.ker.w - 1)
      some ⟨m, s, ⟨wh, ww, s.c⟩, ⟨cdiv (m.inp.h - (m.ker.h - 1)) wh, cdiv (m.inp.w - (m.ker.w - 1)) ww, cdiv m.inp.c s.c⟩⟩
  else none

/-- one extent of `GetSliceShape` (`conv2d_helper.cc:115-125`) -/
def sliceExt (win sub inp i : ℕ) : ℕ := min (i * win + sub) inp - i * win

/-- `GetSliceShape` -/
def sliceShape (H : Helper2) (i : Sh3) : Option Sh3 :=
  if i.h < H.slices.h ∧ i.w < H.slices.w ∧ i.c < H.slices.c then
    some ⟨sliceExt H.win.h H.sub.h H.m.inp.h i.h, sliceExt H.win.w H.sub.w H.m.inp.w i.w, sliceExt H.win.c H.sub.c H.m.inp.c i.c⟩
  else none

/-- `SlicedTensor`, after `ZeroPadAs` -/
structure Slice (V : Type) where
  base : ℕ → V
  shape : Sh3
  off : Sh3
  ext : Sh3
  pad : Sh3

/-- `Conv2DHelper::Slice` and `Wrap` (`conv2d_helper.cc:79-92, 127-144`) -/
def slice {V : Type} (H : Helper2) (base : ℕ → V) (shape i pad : Sh3) : Option (Slice V) := do
  let e ← sliceShape H i
  let o : Sh3 := ⟨i.h * H.win.h, i.w * H.win.w, i.c * H.win.c⟩
  if 0 < e.h ∧ e.h ≤ shape.h ∧ 0 < e.w ∧ e.w ≤ shape.w ∧ 0 < e.c ∧ e.c ≤ shape.c then return ⟨base, shape, o, e, pad⟩ else none

/-- `SlicedTensor::at` (`conv2d_helper.h:46-66`) -/
def Slice.at' {V : Type} [Zero V] (t : Slice V) (h w c : ℕ) : Option V :=
  if t.pad.h = 0 ∨ t.pad.w = 0 ∨ t.pad.c = 0 then none
  else if t.ext.h ≤ h ∨ t.ext.w ≤ w ∨ t.ext.c ≤ c then some 0
  else
    let o := ((t.off.h + h) * t.shape.w + (t.off.w + w)) * t.shape.c + (t.off.c + c)
    if o < t.shape.numel then some (t.base o) else none

/-! ## Positions of coefficients -/

/-- `InputIndexer` (`conv2d_helper.cc:27-41`) -/
def inputIndex (s : Sh3) (h w c : ℕ) : Option ℤ :=
  if c < s.c ∧ h < s.h ∧ w < s.w then some ((c : ℤ) * (s.h * s.w) + h * s.w + w) else none

/-- `KernelIndexer::begin_` (`conv2d_helper.cc:43-52`) -/
def kernelBegin (i f : Sh3) : ℤ := (i.h * i.w : ℤ) * (f.c - 1) + i.w * (f.h - 1) + f.w - 1

/-- `KernelIndexer` (`conv2d_helper.cc:54-63`) -/
def kernelIndex (i f : Sh3) (h w c : ℕ) : Option ℤ :=
  if c < f.c ∧ h < f.h ∧ w < f.w then some (kernelBegin i f - c * (i.h * i.w) - h * i.w - w) else none

/-- the loops of `Tensor2Poly` -/
def cells3 (s : Sh3) : List (ℕ × ℕ × ℕ) :=
  (List.range s.c).flatMap fun c => (List.range s.h).flatMap fun h => (List.range s.w).map fun w => (h, w, c)

/-- `Tensor2Poly` (`tensor_encoder.cc:104-136`) -/
def tensor2Poly {V : Type} [Zero V] (N : ℕ) (ishape kshape : Sh3) (t : Slice V) (idx : ℕ → ℕ → ℕ → Option ℤ) : Option (ℕ → V) :=
  if 0 < ishape.numel ∧ 0 < kshape.numel ∧ (t.pad.numel = ishape.numel ∨ t.pad.numel = kshape.numel) ∧ t.pad.numel ≤ N then
    (cells3 (if ishape.numel = t.pad.numel then ishape else kshape)).foldlM (fun p x => do
      let i ← idx x.1 x.2.1 x.2.2
      let v ← t.at' x.1 x.2.1 x.2.2
      if 0 ≤ i ∧ i < N then return Function.update p i.toNat v else none) fun _ => 0
  else none

section
variable {V : Type} [Zero V]

/-- `EncodeInput` (`conv2d_prot.cc:181-203`, `tensor_encoder.cc:40-70`): the polynomials, before their coefficients are scaled -/
def encodeInput (N : ℕ) (m : Meta) (s : Sh3) (x : ℕ → V) : Option (ℕ → ℕ → V) := do
  if validMeta N m ∧ validSub N s then
    let H ← mkHelper m s
    let ppc := H.slices.h * H.slices.w
    (List.range (H.slices.h * H.slices.w * H.slices.c)).foldlM (fun out i => do
      let t ← slice H x m.inp ⟨i % ppc / H.slices.w, i % H.slices.w, i / ppc⟩ s
      let p ← tensor2Poly N s ⟨m.ker.h, m.ker.w, s.c⟩ t (inputIndex s)
      return Function.update out i p) fun _ _ => 0
  else none

/-- `EncodeSingleKernel` (`conv2d_prot.cc:223-250`, `tensor_encoder.cc:72-102`) -/
def encodeKernel (N : ℕ) (m : Meta) (s : Sh3) (k : ℕ → V) : Option (ℕ → ℕ → V) := do
  let f : Sh3 := ⟨m.ker.h, m.ker.w, s.c⟩
  let H ← mkHelper ⟨1, 1, m.ker, m.ker, m.ker.h, m.ker.w⟩ f
  let ppc := H.slices.h * H.slices.w
  if H.slices.h * H.slices.w * H.slices.c = cdiv m.ker.c s.c then
    (List.range (H.slices.h * H.slices.w * H.slices.c)).foldlM (fun out i => do
      let t ← slice H k m.ker ⟨i % ppc / H.slices.w, i % H.slices.w, i / ppc⟩ f
      let p ← tensor2Poly N s f t (kernelIndex s f)
      return Function.update out i p) fun _ _ => 0
  else none

/-- `EncodeKernels` (`conv2d_prot.cc:205-221`) -/
def encodeKernels (N : ℕ) (m : Meta) (s : Sh3) (k : ℕ → V) : Option (ℕ → ℕ → V) :=
  if validMeta N m ∧ validSub N s then
    let per := m.kernels * cdiv m.ker.c s.c / m.kernels
    (List.range m.kernels).foldlM (fun out o => do
      let p ← encodeKernel N m s fun j => k (o + j * m.kernels)
      return fun i => if o * per ≤ i ∧ i < o * per + per then p (i - o * per) else out i) fun _ _ => 0
  else none

end

/-! ## Products -/

/-- `GetOutSize` (`conv2d_prot.cc:86-93`) over the number of kernels -/
def outPer (H : Helper2) : ℕ := H.slices.h * H.slices.w * H.slices.c / cdiv H.m.inp.c H.sub.c * H.m.kernels / H.m.kernels

/-- `Compute` and `ComputeOneKernel` (`conv2d_prot.cc:256-275, 346-364`) -/
def compute {A : Type} [CommRing A] (N : ℕ) (H : Helper2) (x k : ℕ → ℕ → A) (i : ℕ) : ℕ → A :=
  let perI := H.m.kernels * cdiv H.m.ker.c H.sub.c / H.m.kernels
  let o := i / outPer H
  let n := H.slices.h * H.slices.w * H.slices.c / perI
  (List.range perI).foldl (fun acc c => fun t => acc t + negMul N (x (c * n + i % outPer H)) (k (o * perI + c)) t) fun _ => 0

/-! ## Reading results -/

/-- offset and extent of the results of a slice (`conv2d_helper.cc:166-176`) -/
def outExt (stride win ker sl i : ℕ) : ℕ × ℕ :=
  let off := (stride - i * win % stride) % stride
  (off, (sl + stride - ker - off) / stride)

/-- `GetResultCoefficients` (`conv2d_helper.cc:146-191`): the coefficients and the two extents -/
def resultCoeffs (H : Helper2) (h w : ℕ) : Option (List ℤ × ℕ × ℕ) := do
  let sl ← sliceShape H ⟨h, w, 0⟩
  let i : Sh3 := ⟨H.sub.h, H.sub.w, sl.c⟩
  let f : Sh3 := ⟨H.m.ker.h, H.m.ker.w, sl.c⟩
  if H.m.sh = 0 ∨ H.m.sw = 0 then none
  else
    let a := outExt H.m.sh H.win.h H.m.ker.h sl.h h
    let b := outExt H.m.sw H.win.w H.m.ker.w sl.w w
    let l ← (cells a.2 b.2).mapM fun e =>
      (inputIndex i (e.1 * H.m.sh + a.1) (e.2 * H.m.sw + b.1) 0).map fun t => kernelBegin i f + t
    return (l, a.2, b.2)

/-- `ExtractLWEsInplace` (`conv2d_prot.cc:366-390`): the coefficients of polynomial `p` that are not needed are lost -/
def extractLWEs {β : Type} (H : Helper2) (junk : ℕ → ℕ → β) (polys : ℕ → ℕ → β) (p t : ℕ) : β :=
  let q := p % (H.slices.h * H.slices.w)
  match resultCoeffs H (q / H.slices.w) (q % H.slices.w) with
  | some r => if (t : ℤ) ∈ r.1 then polys p t else junk p t
  | none => junk p t

/-- a tensor of results -/
abbrev Out (β : Type) := ℕ → ℕ → ℕ → β

/-- `xc(p, q, m) = v` -/
def writeOut {β : Type} (out : Out β) (p q m : ℕ) (v : β) : Out β :=
  fun p' q' m' => if p' = p ∧ q' = q ∧ m' = m then v else out p' q' m'

/-- the body of the loops over slices (`conv2d_prot.cc:428-443`) -/
def parseSlice {β : Type} (N : ℕ) (polys : ℕ → ℕ → β) (r : List ℤ × ℕ × ℕ) (oh ow o idx hoff woff : ℕ) (out : Out β) : Option (Out β) :=
  ((cells r.2.1 r.2.2).zip r.1).foldlM (fun out e =>
    if 0 ≤ e.2 ∧ e.2 < (N : ℤ) ∧ e.1.1 + hoff < oh ∧ e.1.2 + woff < ow then
      some (writeOut out (e.1.1 + hoff) (e.1.2 + woff) o (polys idx e.2.toNat))
    else none) out

/-- `ParseResult` (`conv2d_prot.cc:397-451`), on coefficients that are decoded already; the states of the loops are the offset, the
extent of the last slice, and the results -/
def parseResult {β : Type} (N : ℕ) (H : Helper2) (z : β) (polys : ℕ → ℕ → β) : Option (Out β) :=
  let ppc := H.slices.h * H.slices.w
  let oh := (H.m.inp.h - H.m.ker.h + H.m.sh) / H.m.sh
  let ow := (H.m.inp.w - H.m.ker.w + H.m.sw) / H.m.sw
  (List.range H.m.kernels).foldlM (fun out o => do
    let r ← (List.range H.slices.h).foldlM (fun (s : ℕ × Out β) h => do
      let r ← (List.range H.slices.w).foldlM (fun (t : ℕ × ℕ × Out β) w => do
        let r ← resultCoeffs H h w
        let out ← parseSlice N polys r oh ow o (o * ppc + (h * H.slices.w + w)) s.1 t.1 t.2.2
        return (t.1 + r.2.2, r.2.1, out)) (0, 0, s.2)
      return (s.1 + r.2.1, r.2.2)) (0, out)
    return r.2) fun _ _ _ => z

/-- the convolution of plaintexts: all steps, with blocks of shape `s`; the input is scaled up if `scale`, else the kernels -/
def conv2d (h : Spu.Model.Ms.Helper) (N : ℕ) (m : Meta) (s : Sh3) (scale : Bool) (x k : ℕ → ZMod (2 ^ h.c.k)) : Option (Out ℕ) := do
  let P ← encodeInput N m s x
  let K ← encodeKernels N m s k
  let H ← mkHelper m s
  let cts := compute N H (fun p i => (if scale then up h else centre h) (P p i)) (fun p i => (if scale then centre h else up h) (K p i))
  parseResult N H 0 fun p t => decode h (extractLWEs H (fun _ _ => 0) cts p t)

end Spu.Model.Cconv

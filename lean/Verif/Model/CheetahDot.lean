import Verif.Spec.CheetahDot
import Verif.Model.CheetahMul
import Mathlib.Algebra.Order.Ring.Rat

set_option autoImplicit false

/-!
# Cheetah's matrix products on polynomials

(`mpc/cheetah/arith/matmat_prot.cc`, `mpc/cheetah/arith/cheetah_dot.cc:159-620`, `mpc/cheetah/rlwe/packlwes.cc`,
`mpc/cheetah/rlwe/lwe_ct.cc:548-606`)

A ciphertext is what it decrypts to, a polynomial modulo `X^N + 1` over a commutative ring (the integers modulo the product of the
moduli), apart from `castLWE`, which is on pairs of polynomials.  SEAL's operations are what they compute: the dyadic product of
transformed polynomials is their product, `apply_galois` the substitution.  Noise, and the rounding when moduli are dropped, are
added at the end (`Props/CheetahDot.lean`).  Matrices are functions of the position in row-major order.  `none` is an exception or
an access out of bounds.
-/

namespace Spu.Model.Cdot
open Spu.Spec.Nega Spu.Model.Cmul
open Spu.Model.Ms (bitCeil)

/-- three extents: of the product, or of its blocks -/
structure Dims where
  d0 : ℕ
  d1 : ℕ
  d2 : ℕ
deriving DecidableEq, Repr

/-! ## The shape of blocks -/

/-- `cost <= min_cost`, where `none` is the initial bound -/
def better (x : ℚ) : Option ℚ → Bool
  | none => true
  | some c => decide (x ≤ c)

/-- the loop over `d1` (`matmat_prot.cc:194-219`), with the best cost and shape so far; `cost` is the estimate computed from the
shape, a `double` -/
def d1Loop (cost : Dims → ℚ) (pack : Bool) (n d0 : ℕ) (m : Dims) : ℕ → ℕ → Option ℚ × Dims → Option ℚ × Dims
  | 0, _, s => s
  | f + 1, d1, s =>
    if d1 ≤ m.d1 ∧ d0 * d1 ≤ n then
      let t : Dims := ⟨d0, d1, min m.d2 (n / d0 / d1)⟩
      d1Loop cost pack n d0 m f (if pack then d1 * 2 else d1 + 1) (if better (cost t) s.1 then (some (cost t), t) else s)
    else s

/-- `GetSubMatShape` (`matmat_prot.cc:180-223`) -/
def subShape (cost : Dims → ℚ) (pack : Bool) (n : ℕ) (m : Dims) : Dims :=
  ((List.range (min n m.d0)).foldl (fun s i => d1Loop cost pack n (i + 1) m m.d1 1 s) (none, ⟨0, 0, 0⟩)).2

/-! ## Encoding -/

/-- `LHSIndexer` (`matmat_prot.cc:51-66`) -/
def lhsIndex (s : Dims) (N r c : ℕ) : ℤ × Bool :=
  let flip := decide (r = 0 ∧ 0 < c)
  ((N : ℤ) * (if flip then 1 else 0) + r * (s.d1 * s.d2 : ℕ) - c, flip)

/-- `RHSIndexer` (`matmat_prot.cc:68-80`) -/
def rhsIndex (s : Dims) (_ r c : ℕ) : ℤ × Bool := ((c : ℤ) * s.d1 + r, false)

/-- `ResultIndexer` (`matmat_prot.cc:82-94`) -/
def resIndex (s : Dims) (r c : ℕ) : ℕ := r * (s.d1 * s.d2) + c * s.d1

/-- rows and columns of a loop nest -/
def cells (e0 e1 : ℕ) : List (ℕ × ℕ) := (List.range e0).flatMap fun r => (List.range e1).map fun c => (r, c)

section
variable {V : Type} [CommRing V]

/-- `ConcatSubMatrix` (`matmat_prot.cc:96-130`) -/
def concatSub (idx : ℕ → ℕ → ℤ × Bool) (N : ℕ) (mat : ℕ → V) (rows cols sub0 sub1 s0 s1 e0 e1 : ℕ) : Option (ℕ → V) :=
  if sub0 * sub1 ≤ N ∧ s0 < rows ∧ s1 < cols ∧ 0 < e0 ∧ 0 < e1 ∧ s0 + e0 ≤ rows ∧ s1 + e1 ≤ cols then
    (cells e0 e1).foldlM (fun p rc =>
      let i := idx rc.1 rc.2
      let v := mat ((s0 + rc.1) * cols + (s1 + rc.2))
      if 0 ≤ i.1 ∧ i.1 < N then some (Function.update p i.1.toNat (if i.2 then -v else v)) else none) fun _ => 0
  else none

/-- `EncodeMatrix` (`matmat_prot.cc:241-284`): the polynomials, before their coefficients are scaled -/
def encodeMatrix (idx : ℕ → ℕ → ℤ × Bool) (N : ℕ) (rows cols sub0 sub1 : ℕ) (colMajor : Bool) (mat : ℕ → V) :
    Option (ℕ → ℕ → V) :=
  let nr := cdiv rows sub0
  let nc := cdiv cols sub1
  (List.range (nr * nc)).foldlM (fun out job => do
    let rblk := job / nc
    let cblk := job % nc
    let rs := rblk * sub0
    let cs := cblk * sub1
    let p ← concatSub idx N mat rows cols sub0 sub1 rs cs (min rows (rs + sub0) - rs) (min cols (cs + sub1) - cs)
    return Function.update out (if colMajor then cblk * nr + rblk else rblk * nc + cblk) p) fun _ _ => 0

/-- `EncodeLHS` (`matmat_prot.cc:225-231`) -/
def encodeLHS (N : ℕ) (m s : Dims) (mat : ℕ → V) : Option (ℕ → ℕ → V) :=
  encodeMatrix (lhsIndex s N) N m.d0 m.d1 s.d0 s.d1 false mat

/-- `EncodeRHS` (`matmat_prot.cc:233-239`) -/
def encodeRHS (N : ℕ) (m s : Dims) (mat : ℕ → V) : Option (ℕ → ℕ → V) :=
  encodeMatrix (rhsIndex s N) N m.d1 m.d2 s.d1 s.d2 true mat

end

/-! ## Products -/

variable {A : Type} [CommRing A]

/-- `DoCompute` (`matmat_prot.cc:653-704`): both orders of the loops add the same products to an output in the same order -/
def compute (N : ℕ) (m s : Dims) (lhs rhs : ℕ → ℕ → A) (o : ℕ) : ℕ → A :=
  let b1 := cdiv m.d1 s.d1
  let b2 := cdiv m.d2 s.d2
  let i := o / b2
  let k := o % b2
  (List.range b1).foldl (fun acc j => fun t => acc t + negMul N (lhs (i * b1 + j)) (rhs (k * b1 + j)) t) fun _ => 0

/-! ## Reading results -/

/-- the loops over blocks and the entries of a block that are inside of the product -/
def blockCells (m s : Dims) : List ((ℕ × ℕ) × (ℕ × ℕ)) :=
  (cells (cdiv m.d0 s.d0) (cdiv m.d2 s.d2)).flatMap fun b =>
    (cells (min (b.1 * s.d0 + s.d0) m.d0 - b.1 * s.d0) (min (b.2 * s.d2 + s.d2) m.d2 - b.2 * s.d2)).map fun e => (b, e)

/-- where the loops write -/
def cellDst (m s : Dims) (x : (ℕ × ℕ) × (ℕ × ℕ)) : ℕ := (x.2.1 + x.1.1 * s.d0) * m.d2 + x.1.2 * s.d2 + x.2.2

variable {β : Type}

/-- `ParseResult` (`matmat_prot.cc:383-436`), on coefficients that are decoded already -/
def parseResult (N : ℕ) (m s : Dims) (z : β) (polys : ℕ → ℕ → β) : Option (ℕ → β) :=
  (blockCells m s).foldlM (fun out x =>
    let p := x.1.1 * cdiv m.d2 s.d2 + x.1.2
    let t := resIndex s x.2.1 x.2.2
    if t < N ∧ cellDst m s x < m.d0 * m.d2 then some (Function.update out (cellDst m s x) (polys p t)) else none) fun _ => z

/-- `PackRLWEMappingHelper::GetPackedIndex` (`matmat_prot.cc:438-456`) -/
def packedIndex (N gap total p off : ℕ) : Option (ℕ × ℕ) :=
  if p < total ∧ off < N / gap then some (p / gap, off * gap + p % gap) else none

/-- `ParseBatchPackedResult` (`matmat_prot.cc:458-517`) -/
def parsePacked (N batch : ℕ) (m s : Dims) (z : β) (polys : ℕ → ℕ → β) : Option (ℕ → β) :=
  let outN := cdiv m.d0 s.d0 * cdiv m.d2 s.d2
  let per := m.d0 * m.d2
  (List.range batch).foldlM (fun out b =>
    (blockCells m s).foldlM (fun out x => do
      let p := x.1.1 * cdiv m.d2 s.d2 + x.1.2
      let o ← packedIndex N s.d1 (outN * batch) (b * outN + p) (x.2.1 * s.d2 + x.2.2)
      if o.1 < cdiv (outN * batch) s.d1 ∧ o.2 < N ∧ cellDst m s x < per then
        return Function.update out (b * per + cellDst m s x) (polys o.1 o.2)
      else none) out) fun _ => z

/-- `ParsePackLWEsResult` (`matmat_prot.cc:525-563`), for `count` polynomials -/
def parseLWEs (N count : ℕ) (m : Dims) (z : β) (polys : ℕ → ℕ → β) : Option (ℕ → β) :=
  let total := m.d0 * m.d2
  if count = cdiv total N then
    (List.range count).foldlM (fun out i =>
      let bgn := min (i * N) total
      let num := min (bgn + N) total - bgn
      let gap := N / bitCeil num
      (List.range num).foldlM (fun out j =>
        if j * gap < N then some (Function.update out (bgn + j) (polys i (j * gap))) else none) out) fun _ => z
  else none

/-! ## Packing -/

/-- `NegacyclicRightShiftInplace` (`packlwes.cc:204-242`) -/
def shiftRight (N s : ℕ) (a : ℕ → A) : ℕ → A := fun k => if k < s then -a (N - s + k) else a (k - s)

/-- the step of both packings, `E + X^h O + Auto(E - X^h O)` (`packlwes.cc:136-176, 263-318`) -/
def merge (N shift g : ℕ) : Option (ℕ → A) → Option (ℕ → A) → Option (ℕ → A)
  | none, none => none
  | some e, some o =>
    let o := shiftRight N shift o
    some fun k => galois N g (fun i => e i - o i) k + (e k + o k)
  | some e, none => some fun k => galois N g e k + e k
  | none, some o =>
    let o := shiftRight N shift o
    some fun k => galois N g (fun i => -o i) k + o k

/-- the loop of `doPackingRLWEs` from level `k` down to 1 (`packlwes.cc:136-176`) -/
def packLevels (N : ℕ) : ℕ → (ℕ → Option (ℕ → A)) → ℕ → Option (ℕ → A)
  | 0, cts => cts
  | k + 1, cts => packLevels N k fun i =>
    if i < 2 ^ k then merge N (2 ^ k) (N / 2 ^ k + 1) (cts i) (cts (i + 2 ^ k)) else cts i

/-- `PackingWithModulusDrop` and `doPackingRLWEs` (`packlwes.cc:75-178`) for `gap = 2^l`; `inv` is the inverse of `gap` -/
def packRLWEs (N l num : ℕ) (inv : A) (cts : ℕ → ℕ → A) : Option (ℕ → A) :=
  if 0 < num ∧ num ≤ 2 ^ l then
    packLevels N l (fun i => if i < num then some (fun k => inv * cts i k) else none) 0
  else none

/-- the interleaving of all results (`cheetah_dot.cc:398-416`): groups of `gap` are packed in place, one after the other -/
def packAll (N l outN : ℕ) (inv : A) (cts : ℕ → ℕ → A) : Option (ℕ → ℕ → A) :=
  (List.range (cdiv outN (2 ^ l))).foldlM (fun ct g => do
    let p ← packRLWEs N l (min (outN - g * 2 ^ l) (2 ^ l)) inv fun i => ct (g * 2 ^ l + i)
    return Function.update ct g p) cts

/-- `PhantomLWECt::CastAsRLWE` (`lwe_ct.cc:548-606`) of coefficient `idx` of the ciphertext `ct` -/
def castLWE (N : ℕ) (inv : A) (ct : (ℕ → A) × (ℕ → A)) (idx : ℕ) : (ℕ → A) × (ℕ → A) :=
  (fun k => if k = 0 then inv * ct.1 idx else 0,
   fun k => if k < N - idx then inv * ct.2 (idx + k) else inv * -ct.2 (k - (N - idx)))

/-- what a ciphertext decrypts to under the key `s` -/
def phase (N : ℕ) (s : ℕ → A) (ct : (ℕ → A) × (ℕ → A)) : ℕ → A := fun k => ct.1 k + negMul N ct.2 s k

/-- the loop of `doPackingLWEs` (`packlwes.cc:244-329`): `n` remaining ciphertexts are `2^k`, `depth` is before the step -/
def lweLevels (N : ℕ) : ℕ → ℕ → (ℕ → Option (ℕ → A)) → ℕ → Option (ℕ → A)
  | 0, _, cts => cts
  | k + 1, depth, cts => lweLevels N k (depth * 2) fun i =>
    if i < 2 ^ k then merge N (N / (depth * 2)) (depth * 2 + 1) (cts i) (cts (i + 2 ^ k)) else cts i

/-- the trace (`packlwes.cc:320-328`), steps `k` to `t` -/
def traceLoop (N logN : ℕ) : ℕ → ℕ → (ℕ → A) → ℕ → A
  | 0, _, p => p
  | t + 1, k, p => traceLoop N logN t (k + 1) fun i => p i + galois N (2 ^ (logN - k + 1) + 1) p i

/-- `doPackLWEs` (`packlwes.cc:331-356`) for `2^l` ciphertexts, after the casts -/
def packLWEs (N logN l : ℕ) (cts : ℕ → Option (ℕ → A)) : Option (ℕ → A) :=
  if 2 ^ l ≤ N then (lweLevels N l 1 cts 0).map (traceLoop N logN (logN - l) 1) else none

end Spu.Model.Cdot

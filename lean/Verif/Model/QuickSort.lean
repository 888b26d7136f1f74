import Verif.Model.SortNet
import Verif.Model.Bits
import Mathlib.Logic.Equiv.Basic
import Mathlib.Data.List.OfFn
set_option autoImplicit false
/-!
# Quick sort and quick select on shuffled secret values

Source: `kernel/hal/permute.cc` — `_get_cmp_func` with the appended random bit 46-91, `Swap` 302-319,
`CompSwapSingle` 321-343, `HandleSmallArray` 345-351, `_construct_cmp_values` 353-399, `Partition`
401-493, `mergesort` 495-571, `QuickMergesort` 573-606, `PrepareSort` 608-623, `quick_sort` 625-637,
`TwoWayPartition` 639-702, `QuickSelectTopk` 704-738, `PrepareInput` 740-770, `topk_1d` 1758-1850.

As in `Model.SortNet` an operand is a list of ring elements and `m` operands are processed at once.
The comparison results are revealed by the code, so the control flow is plain.  The secret shuffle
is an arbitrary permutation of the positions (its kernels are C18), the random bits are arbitrary.
Positions are `int64_t` in the code and integers here; a read or write outside an operand is `none`.
-/

namespace Spu.Model.QuickSort
open Spu.Model.SortNet Spu.Model.Bits

/-- a row at an `int64_t` position -/
def rz {m w : ℕ} (c : Cols m w) (z : ℤ) : Row m w := rowAt c z.toNat

/-- `Swap` — permute.cc:302-319. -/
def swap {m w : ℕ} (c : Cols m w) (lhs rhs : List ℤ) : Option (Cols m w) :=
  if lhs = [] ∨ (lhs.length = 1 ∧ rhs.length = 1 ∧ lhs = rhs) then some c
  else if lhs.length = rhs.length ∧ ∀ o, ∀ i ∈ lhs ++ rhs, 0 ≤ i ∧ i < ((c o).length : ℤ) then
    let l := lhs.map Int.toNat
    let r := rhs.map Int.toNat
    some fun o =>
      let lhsArr := gather (c o) l
      let rhsArr := gather (c o) r
      scatter (scatter (c o) lhsArr r) rhsArr l
  else none

/-- `while (right >= left && !_predicate[left - offset + length]) left++` — permute.cc:448-450. -/
def scanL (pred : ℤ → Bool) (right : ℤ) : ℕ → ℤ → ℤ
  | 0, left => left
  | f + 1, left => if left ≤ right ∧ pred left = false then scanL pred right f (left + 1) else left

/-- `while (right >= left && _predicate[right - offset + length]) right--` — permute.cc:451-453. -/
def scanR (pred : ℤ → Bool) (left : ℤ) : ℕ → ℤ → ℤ
  | 0, right => right
  | f + 1, right => if left ≤ right ∧ pred right = true then scanR pred left f (right - 1) else right

/-- the two-pointer loop — permute.cc:447-462 and 669-684.  Returns the pairs to exchange and the
final pointers.  `fuel` bounds the number of rounds, `right - left + 2` are enough. -/
def twoPtr (pred : ℤ → Bool) : ℕ → ℤ → ℤ → List (ℤ × ℤ) → List (ℤ × ℤ) × ℤ × ℤ
  | 0, left, right, acc => (acc, left, right)
  | f + 1, left, right, acc =>
    let left := scanL pred right (right - left + 1).toNat left
    let right := scanR pred left (right - left + 1).toNat right
    if right < left then (acc, left, right)
    else twoPtr pred f (left + 1) (right - 1) (acc ++ [(left, right)])

/-- `_construct_cmp_values` — permute.cc:353-399: the pivot against every other element of each
interval longer than the threshold, concatenated. -/
def cmpValues {m w : ℕ} (thres : ℤ) (c : Cols m w) (ivs : List (ℤ × ℤ)) :
    List (Row m w × Row m w) :=
  ivs.flatMap fun iv =>
    if iv.2 - iv.1 ≤ thres then []
    else (List.range (iv.2 - iv.1).toNat).map fun i : ℕ => (rz c iv.1, rz c (iv.1 + 1 + i))

/-- the local variables of the loop of `Partition` — permute.cc:425-438. -/
structure Scan where
  lhs : List ℤ
  rhs : List ℤ
  pivot : List ℤ
  mid : List ℤ
  pos : List (ℤ × ℤ × ℤ)
  pass : List (ℤ × ℤ)
  length : ℤ

/-- one round of the loop over the intervals — permute.cc:439-470. -/
def scanStep (thres : ℤ) (predicate : List Bool) (s : Scan) (iv : ℤ × ℤ) : Scan :=
  let (lo, hi) := iv
  if hi - lo ≤ thres then { s with pass := s.pass ++ [(lo, hi)] }
  else
    let left := lo + 1
    let right := hi
    let offset := left
    let pred := fun x : ℤ => predicate.getD (x - offset + s.length).toNat false
    let (pairs, _, right) := twoPtr pred (right - left + 2).toNat left right []
    { s with
      lhs := s.lhs ++ pairs.map Prod.fst
      rhs := s.rhs ++ pairs.map Prod.snd
      length := s.length + (hi - lo)
      pivot := s.pivot ++ [lo]
      mid := s.mid ++ [right]
      pos := s.pos ++ [(lo, right, hi)] }

/-- `Partition` — permute.cc:401-493.  `cmp k` is the comparator at place `k` of the concatenated
operands (it draws its own random bit).  The slices of the operands are bounds-checked by the code.
Returns the boolean result, the operands and the new intervals. -/
def partitionRound {m w : ℕ} (thres : ℤ) (cmp : ℕ → Row m w → Row m w → Bool) (c : Cols m w)
    (ivs : List (ℤ × ℤ)) : Option (Bool × Cols m w × List (ℤ × ℤ)) :=
  if ∀ iv ∈ ivs, iv.2 - iv.1 ≤ thres then some (false, c, ivs)
  else if ∀ o, ∀ iv ∈ ivs, ¬ iv.2 - iv.1 ≤ thres → 0 ≤ iv.1 ∧ iv.2 < ((c o).length : ℤ) then do
    let predicate := (cmpValues thres c ivs).zipIdx.map fun ab => cmp ab.2 ab.1.1 ab.1.2
    let s := ivs.foldl (scanStep thres predicate) ⟨[], [], [], [], [], [], 0⟩
    let c ← swap c s.lhs s.rhs
    let c ← swap c s.pivot s.mid
    some (true, c, s.pass ++ s.pos.reverse.flatMap fun p =>
      (if p.1 < p.2.1 then [(p.1, p.2.1 - 1)] else []) ++
      (if p.2.1 < p.2.2 then [(p.2.1 + 1, p.2.2)] else []))
  else none

/-- the loop of `QuickMergesort` — permute.cc:588-597; `fuel` is the number of rounds left until
`depth`. -/
def quickRounds {m w : ℕ} (thres : ℤ) (quick : ℕ → ℕ → Row m w → Row m w → Bool) :
    ℕ → ℕ → Cols m w → List (ℤ × ℤ) → Option (Cols m w × List (ℤ × ℤ))
  | 0, _, c, ivs => some (c, ivs)
  | f + 1, round, c, ivs =>
    if ivs = [] then some (c, ivs)
    else do
      let (again, c, ivs) ← partitionRound thres (quick round) c ivs
      (if again then quickRounds thres quick f (round + 1) c ivs else some (c, ivs))

/-- what interval `iv` contributes to `lhs_indices[t]`, `rhs_indices[t]` — permute.cc:508-541: the
pairs of the `t`-th layer of the network for its length, moved by `lo`. -/
def ivLayer (t : ℕ) (iv : ℤ × ℤ) : List (ℤ × ℤ) :=
  if iv.2 - iv.1 ≤ 0 then []
  else
    let n := (iv.2 - iv.1 + 1).toNat
    match (layers n)[t]? with
    | some gs => (layerPairs n gs.1 gs.2).map fun ab => ((ab.1 : ℤ) + iv.1, (ab.2 : ℤ) + iv.1)
    | none => []

/-- `lhs_indices[t]`, `rhs_indices[t]` after the loop over all intervals. -/
def cell (ivs : List (ℤ × ℤ)) (t : ℕ) : List (ℤ × ℤ) := ivs.flatMap (ivLayer t)

/-- one layer of all intervals — permute.cc:544-570. -/
def mergeLayer {m w : ℕ} (cmp : Row m w → Row m w → Bool) (c : Cols m w) (P : List (ℤ × ℤ)) :
    Option (Cols m w) :=
  if P = [] then some c
  else if ∀ o, ∀ ab ∈ P, (0 ≤ ab.1 ∧ ab.1 < ((c o).length : ℤ)) ∧
      (0 ≤ ab.2 ∧ ab.2 < ((c o).length : ℤ)) then
    let kept := P.filter fun ab => cmp (rz c ab.1) (rz c ab.2) = false
    swap c (kept.map Prod.fst) (kept.map Prod.snd)
  else none

/-- `mergesort` — permute.cc:495-571.  A layer number at or above `depth` would be a write outside
the vectors of index lists. -/
def mergesort {m w : ℕ} (cmp : Row m w → Row m w → Bool) (n : ℕ) (c : Cols m w)
    (ivs : List (ℤ × ℤ)) : Option (Cols m w) :=
  let logn := log2Ceil n
  let depth := ((logn + 1) * logn) / 2
  if ∀ iv ∈ ivs, ¬ iv.2 - iv.1 ≤ 0 → (layers (iv.2 - iv.1 + 1).toNat).length ≤ depth then
    (List.range depth).foldlM (fun c t => mergeLayer cmp c (cell ivs t)) c
  else none

/-- `QuickMergesort` — permute.cc:573-606. -/
def quickMergesort {m w : ℕ} (thres : ℤ) (quick : ℕ → ℕ → Row m w → Row m w → Bool)
    (merge : Row m w → Row m w → Bool) (n : ℕ) (c : Cols m w) : Option (Cols m w) := do
  let (c, ivs) ← quickRounds thres quick 1000 0 c [(0, (n : ℤ) - 1)]
  (if ivs = [] then some c else mergesort merge n c ivs)

/-- one round of the key loop of `_get_cmp_func` with `append_rand` — permute.cc:63-85. -/
def cmpKeysLoopR {m w : ℕ} (d : Dir) (bit : Bool) (a b : Row m w) (last : ℕ) :
    List ℕ → Bool → Bool → Bool
  | [], preEqual, result =>
    let preEqual := preEqual && (valAt a last == valAt b last)
    result || (preEqual && bit)
  | cur :: ks, preEqual, result =>
    let preEqual := preEqual && (valAt a (cur - 1) == valAt b (cur - 1))
    let current := preEqual && scalarCmp d (valAt a cur) (valAt b cur)
    cmpKeysLoopR d bit a b last ks preEqual (result || current)

/-- `_get_cmp_func(ctx, num_keys, direction, true)` — permute.cc:46-91; the last key compared for
equality is number `num_keys - 1` (`idx` is `2 * num_keys` when the loop ends). -/
def cmpFuncR {m w : ℕ} (d : Dir) (numKeys : ℕ) (bit : Bool) (a b : Row m w) : Bool :=
  cmpKeysLoopR d bit a b (numKeys - 1) (List.range' 1 (numKeys - 1)) true
    (scalarCmp d (valAt a 0) (valAt b 0))

/-- `_perm_ss` of every operand by the same permutation — permute.cc:608-623. -/
def shuffle {m w n : ℕ} (π : Equiv.Perm (Fin n)) (c : Cols m w) : Cols m w :=
  fun o => List.ofFn fun i => (c o).getD (π i) 0

/-- `quick_sort` — permute.cc:625-637.  `bits r k` is the random bit at place `k` of round `r`. -/
def quickSort {m w n : ℕ} (thres : ℤ) (d : Dir) (numKeys : ℕ) (π : Equiv.Perm (Fin n))
    (bits : ℕ → ℕ → Bool) (c : Cols m w) : Option (Cols m w) :=
  quickMergesort thres (fun r k => cmpFuncR d numKeys (bits r k)) (cmpFunc d numKeys) n
    (shuffle π c)

/-! ### quick select -/

/-- `TopKConfig` — kernel/hal/permute.h. -/
structure TopKConfig where
  valueOnly : Bool
  confusion : Bool
  kLo : ℤ
  kHi : ℤ

/-- `CompSwapSingle` — permute.cc:321-343. -/
def compSwapSingle {m w : ℕ} (cmp : Row m w → Row m w → Bool) (c : Cols m w) (lo hi : ℤ) :
    Option (Cols m w) :=
  if lo = hi then some c
  else if ∀ o, (0 ≤ lo ∧ lo < ((c o).length : ℤ)) ∧ (0 ≤ hi ∧ hi < ((c o).length : ℤ)) then
    if cmp (rz c lo) (rz c hi) = false then swap c [lo] [hi] else some c
  else none

/-- `HandleSmallArray` — permute.cc:345-351. -/
def handleSmall {m w : ℕ} (cmp : Row m w → Row m w → Bool) (c : Cols m w) (lo hi : ℤ) :
    Option (Cols m w) :=
  if hi = lo + 1 then compSwapSingle cmp c lo hi else some c

/-- `TwoWayPartition` — permute.cc:639-702.  Returns the operands and the intervals it pushes. -/
def twoWayPartition {m w : ℕ} (cmp : Row m w → Row m w → Bool) (cfg : TopKConfig) (c : Cols m w)
    (lo hi : ℤ) : Option (Cols m w × List (ℤ × ℤ)) :=
  if ∀ o, 0 ≤ lo ∧ hi < ((c o).length : ℤ) then do
    let left := lo + 1
    let right := hi
    let predicate := (List.range (right - left + 1).toNat).map fun i : ℕ =>
      cmp (rz c lo) (rz c (left + i))
    let offset := left
    let pred := fun x : ℤ => predicate.getD (x - offset).toNat false
    let (pairs, left, right) := twoPtr pred (right - left + 2).toNat left right []
    let c ← swap c (pairs.map Prod.fst) (pairs.map Prod.snd)
    let c ← swap c [lo] [right]
    (if cfg.kLo - 1 < right ∧ right < cfg.kHi - 1 then
      some (c, [(lo, right - 1), (left, hi)])
    else
      let hi := if right ≥ cfg.kHi - 1 then right - 1 else hi
      let lo := if right ≤ cfg.kLo - 1 then left else lo
      some (c, [(lo, hi)]))
  else none

/-- the loop of `QuickSelectTopk` — permute.cc:718-729; the back of the vector is the end of the
list.  Running out of `fuel` is non-termination. -/
def selectLoop {m w : ℕ} (cmp : Row m w → Row m w → Bool) (cfg : TopKConfig) :
    ℕ → Cols m w → List (ℤ × ℤ) → Option (Cols m w)
  | 0, _, _ => none
  | f + 1, c, ivs =>
    match ivs.getLast? with
    | none => some c
    | some (lo, hi) =>
      let ivs := ivs.dropLast
      if hi ≤ lo + 1 then do
        let c ← handleSmall cmp c lo hi
        selectLoop cmp cfg f c ivs
      else do
        let (c, more) ← twoWayPartition cmp cfg c lo hi
        selectLoop cmp cfg f c (ivs ++ more)

/-- the operands of `PrepareInput` before the shuffle — permute.cc:740-770: the values, the random
numbers that break ties, and the positions.  The code leaves out the second operand unless
`confusion` is set and the third one if only the values are wanted; here they are always carried
along and ignored by the comparator, respectively by the result. -/
def topkInput {w n : ℕ} (x rnd : Fin n → BitVec w) : Cols 3 w := fun o =>
  match o with
  | 0 => List.ofFn x
  | 1 => List.ofFn rnd
  | 2 => List.ofFn fun i : Fin n => BitVec.ofNat w i

/-- the comparator of `topk_1d` — permute.cc:1806-1821. -/
def topkCmp {w : ℕ} (d : Dir) (cfg : TopKConfig) (a b : Row 3 w) : Bool :=
  let cmp := scalarCmp d (a 0) (b 0)
  if cfg.confusion = false then cmp
  else cmp || ((a 0 == b 0) && scalarCmp d (a 1) (b 1))

/-- `slice(ctx, x, {0}, {k_hi})` of the values and of the positions — permute.cc:732-737. -/
def topkOut {w : ℕ} (cfg : TopKConfig) (c : Cols 3 w) :
    List (BitVec w) × Option (List (BitVec w)) :=
  ((c 0).take cfg.kHi.toNat,
    if cfg.valueOnly then none else some ((c 2).take cfg.kHi.toNat))

/-- the checks of `topk_1d` — permute.cc:1764-1768 — and of its caller `hlo::TopK` (`k_lo > 0`,
kernel/hlo/rank.cc:91-93). -/
def topkChecks (cfg : TopKConfig) (n : ℕ) : Prop := 0 < cfg.kLo ∧ cfg.kLo ≤ cfg.kHi ∧ cfg.kHi ≤ n

instance (cfg : TopKConfig) (n : ℕ) : Decidable (topkChecks cfg n) := by
  unfold topkChecks; infer_instance

/-- `topk_1d` on a secret vector, with the kernels for shuffling — permute.cc:1803-1823. -/
def topkSelect {w n : ℕ} (d : Dir) (cfg : TopKConfig) (π : Equiv.Perm (Fin n))
    (x rnd : Fin n → BitVec w) (fuel : ℕ) : Option (List (BitVec w) × Option (List (BitVec w))) :=
  if topkChecks cfg n then do
    let c ← selectLoop (topkCmp d cfg) cfg fuel (shuffle π (topkInput x rnd))
      [(0, (n : ℤ) - 1)]
    some (topkOut cfg c)
  else none

/-- `topk_1d` on a secret vector without them — permute.cc:1825-1849: the sorting network, comparing
the values only. -/
def topkNetwork {w n : ℕ} (d : Dir) (cfg : TopKConfig) (x rnd : Fin n → BitVec w) :
    Option (List (BitVec w) × Option (List (BitVec w))) :=
  if topkChecks cfg n then do
    let c ← oddEvenMergeSort (fun a b => scalarCmp d (a 0) (b 0)) n (topkInput x rnd)
    some (topkOut cfg c)
  else none

/-- `topk_1d` on a public vector — permute.cc:1770-1800.  `nth first nth l` is
`std::nth_element(l.begin() + first, l.begin() + nth, l.end(), comparator)`. -/
def topkPublic {w n : ℕ} (nth : ℕ → ℕ → List (Fin n) → List (Fin n)) (cfg : TopKConfig)
    (x : Fin n → BitVec w) : Option (List (BitVec w) × Option (List (BitVec w))) :=
  if topkChecks cfg n then
    let idx := List.finRange n
    let idx := nth 0 (cfg.kLo - 1).toNat idx
    let idx := if cfg.kLo < cfg.kHi then nth cfg.kLo.toNat (cfg.kHi - 1).toNat idx else idx
    let topk := idx.take cfg.kHi.toNat
    some (topk.map x, if cfg.valueOnly then none else some (topk.map fun i : Fin n => BitVec.ofNat w i))
  else none

end Spu.Model.QuickSort

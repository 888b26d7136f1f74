import Mathlib.Algebra.Order.Floor.Div
import Mathlib.Data.List.Basic

set_option autoImplicit false

/-!
# Blocked matrix multiplication (`kernel/hal/ring.cc:228-415`)

The matrix kernel and the addition kernel are parameters: they return a result in some memory layout.  Integers are not
bounded (`int64_t` products of dimensions do not overflow).
-/

namespace Spu.Model.Mmul

variable {R : Type}

/-- a matrix argument -/
structure Mat (R : Type) where
  rows : ℕ
  cols : ℕ
  val : ℕ → ℕ → R

/-- a two-dimensional array: strides and memory from the first element on -/
structure Blk (R : Type) where
  rows : ℕ
  cols : ℕ
  rs : ℕ
  cs : ℕ
  buf : ℕ → R

/-- `at({i, j})` (`core/ndarray_ref.h:147-158`): position -/
def Blk.addr (b : Blk R) (i j : ℕ) : ℕ := i * b.rs + j * b.cs

/-- element -/
def Blk.get (b : Blk R) (i j : ℕ) : R := b.buf (b.addr i j)

/-- `makeCompactStrides({m, n})` (`core/shape.cc:32-46`) -/
def compactRs (m n : ℕ) : ℕ := if m = 1 then 0 else n
def compactCs (n : ℕ) : ℕ := if n = 1 then 0 else 1

/-- `NdArrayRef::isCompact` (`core/ndarray_ref.h:129-134`) -/
def Blk.isCompact (b : Blk R) : Bool :=
  b.rows * b.cols < 2 || (b.rs == compactRs b.rows b.cols && b.cs == compactCs b.cols)

/-- write one element; outside the buffer: `none` -/
def put (buf : List R) (i : ℕ) (v : R) : Option (List R) := if i < buf.length then some (buf.set i v) else none

def puts (buf : List R) (l : List (ℕ × R)) : Option (List R) := l.foldlM (fun b p => put b p.1 p.2) buf

/-- `memcpy` of `len` elements from position `src` of the block to position `dst` -/
def memcpy (buf : List R) (dst : ℕ) (b : Blk R) (src len : ℕ) : Option (List R) :=
  puts buf ((List.range len).map fun k => (dst + k, b.buf (src + k)))

/-- `_extract_slice(x, {r0, c0}, {r1, c1})` -/
def slice (x : Mat R) (r0 c0 r1 c1 : ℕ) : Mat R := ⟨r1 - r0, c1 - c0, fun i j => x.val (r0 + i) (c0 + j)⟩

/-- merging one block into the result (`ring.cc:379-411`) -/
def mergeBlock (m n mStep nStep nBlocks : ℕ) (ret : List R) (rc : ℕ × ℕ) (b : Blk R) : Option (List R) :=
  let addr := fun i j => i * compactRs m n + j * compactCs n
  if b.isCompact then
    if nBlocks = 1 then
      if b.cols = n then memcpy ret (addr (rc.1 * mStep) 0) b (b.addr 0 0) (b.rows * b.cols) else none
    else (List.range b.rows).foldlM
      (fun ret i => memcpy ret (addr (rc.1 * mStep + i) (rc.2 * nStep)) b (b.addr i 0) b.cols) ret
  else (List.range b.rows).foldlM (fun ret i => (List.range b.cols).foldlM
    (fun ret j => put ret (addr (rc.1 * mStep + i) (rc.2 * nStep + j)) (b.get i j)) ret) ret

/-- `(m + m_step - 1) / m_step` -/
def blocks (m step : ℕ) : ℕ := (m + step - 1) / step

/-- block `(r, c)` of the result (`ring.cc:337-376`): products of the inner blocks, added up -/
def block (impl : Mat R → Mat R → Blk R) (add : Blk R → Blk R → Blk R) (x y : Mat R) (m n k mStep nStep kStep : ℕ)
    (r c : ℕ) : Blk R :=
  let part := fun i => impl
    (slice x (r * mStep) (i * kStep) (min m (r * mStep + mStep)) (min k (i * kStep + kStep)))
    (slice y (i * kStep) (c * nStep) (min k (i * kStep + kStep)) (min n (c * nStep + nStep)))
  (List.range' 1 (blocks k kStep - 1)).foldl (fun acc i => add acc (part i)) (part 0)

/-- `_mmul` for given block sizes (`ring.cc:313-415`); `noSplit` is `experimental_disable_mmul_split` -/
def mmul (impl : Mat R → Mat R → Blk R) (add : Blk R → Blk R → Blk R) (noSplit : Bool) (z : R) (x y : Mat R)
    (mStep nStep kStep : ℕ) : Option (Blk R) :=
  let m := x.rows
  let k := x.cols
  let n := y.cols
  if x.cols ≠ y.rows then none
  else if noSplit || (mStep == m && nStep == n && kStep == k) then some (impl x y)
  else do
    let rcs := (List.range (blocks m mStep)).flatMap fun r => (List.range (blocks n nStep)).map fun c => (r, c)
    let ret ← rcs.foldlM (fun ret rc => mergeBlock m n mStep nStep (blocks n nStep) ret rc
      (block impl add x y m n k mStep nStep kStep rc.1 rc.2)) (List.replicate (m * n) z)
    return ⟨m, n, compactRs m n, compactCs n, fun i => ret.getD i z⟩

/-- `calcMmulTilingSize` (`ring.cc:249-288`).  `elnum` is `mem_limit / elsize`; in the third case the two sizes come from a
`double` square root and are parameters (`k_step`, `expected_mn_step` before the maximum with 1). -/
def tilingSize (m n k elsize memLimit : ℕ) (kd mnd : ℕ) : ℕ × ℕ × ℕ :=
  if m = 0 ∨ n = 0 ∨ k = 0 then (m, n, k)
  else if (m * k + k * n) * elsize < memLimit then (m, n, k)
  else
    let elnum := memLimit / elsize
    let (ks, mn) :=
      if k > (m + n) * 8 then (max 1 ((elnum + (m + n) - 1) / (m + n)), m + n)
      else if (m + n) > k * 8 then (k, max 1 ((elnum + k - 1) / k))
      else (max 1 kd, max 1 mnd)
    (max (mn * m / (m + n)) 1, max (mn * n / (m + n)) 1, ks)

end Spu.Model.Mmul

import Mathlib.Data.List.Range
import Mathlib.Data.BitVec
set_option autoImplicit false
/-!
# The comparator network used to sort secret values

Source: `kernel/hal/permute.cc` (`_get_cmp_func` 46-91, `_cmp_swap` 217-244,
`odd_even_merge_sort` 249-300) and `kernel/hal/ring.cc:465-470` (`_mux`).

The network is modelled on plain ring elements (the protocol kernels it calls — `_mul`, `_add`,
`_sub` — are the subject of C19-C29).  An operand is a list of words, the sorter works on `m`
operands of the same length at once (keys and payloads).
-/

namespace Spu.Model.SortNet

/-- `m` operands, each a 1-d tensor of `w`-bit ring elements. -/
abbrev Cols (m w : ℕ) := Fin m → List (BitVec w)

/-- one position of all operands -/
abbrev Row (m w : ℕ) := Fin m → BitVec w

/-- `NdArrayRef::linear_gather` on a list of words (out-of-range indices are rejected by the
callers below, the array level is C45). -/
def gather {w : ℕ} (l : List (BitVec w)) (idx : List ℕ) : List (BitVec w) :=
  idx.map fun i => l.getD i 0

/-- `NdArrayRef::linear_scatter` on a list of words: writes in list order. -/
def scatter {w : ℕ} (l vals : List (BitVec w)) (idx : List ℕ) : List (BitVec w) :=
  (idx.zip vals).foldl (fun l iv => l.set iv.1 iv.2) l

/-- `_mux` — kernel/hal/ring.cc:465-470: `b + pred * (a - b)` with an arithmetic 0/1 predicate. -/
def mux {w : ℕ} (pred : Bool) (a b : BitVec w) : BitVec w :=
  b + (BitVec.ofNat w pred.toNat) * (a - b)

/-- the `k`-th position of gathered operands -/
def rowAt {m w : ℕ} (c : Cols m w) (k : ℕ) : Row m w := fun o => (c o).getD k 0

/-- `_cmp_swap` — permute.cc:217-244.  The comparator is applied element-wise to the gathered
operands, `greater` goes to the left positions and `fst + sec - greater` to the right ones.
Indices outside the operands are undefined behaviour (`none`). -/
def cmpSwap {m w : ℕ} (cmp : Row m w → Row m w → Bool) (c : Cols m w) (lhs rhs : List ℕ) :
    Option (Cols m w) :=
  if lhs.length = rhs.length ∧ ∀ o, ∀ i ∈ lhs ++ rhs, i < (c o).length then
    let fst : Cols m w := fun o => gather (c o) lhs
    let sec : Cols m w := fun o => gather (c o) rhs
    let predicate := (List.range lhs.length).map fun k => cmp (rowAt fst k) (rowAt sec k)
    some fun o =>
      let greater := (List.range lhs.length).map fun k =>
        mux (predicate.getD k false) ((fst o).getD k 0) ((sec o).getD k 0)
      let less := (List.range lhs.length).map fun k =>
        (fst o).getD k 0 + (sec o).getD k 0 - greater.getD k 0
      scatter (scatter (c o) greater lhs) less rhs
  else none

/-- `for (max_gap = start; max_gap < n; max_gap += max_gap)` — permute.cc:270-271.
`fuel` bounds the number of rounds; `n` rounds are always enough when `start ≥ 1`. -/
def gapsFrom (n : ℕ) : ℕ → ℕ → List ℕ
  | 0, _ => []
  | fuel + 1, g => if g < n then g :: gapsFrom n fuel (g + g) else []

def gaps (n : ℕ) : List ℕ := gapsFrom n n 1

/-- `for (step = gap; step > 0; step /= 2)` — permute.cc:272. -/
def stepsFrom : ℕ → ℕ → List ℕ
  | 0, _ => []
  | fuel + 1, s => if 0 < s then s :: stepsFrom fuel (s / 2) else []

def steps (g : ℕ) : List ℕ := stepsFrom (g + 1) g

/-- `for (j = step % gap; j + step < n; j += step + step)` — permute.cc:277-278. -/
def offsFrom (n s : ℕ) : ℕ → ℕ → List ℕ
  | 0, _ => []
  | fuel + 1, j => if j + s < n then j :: offsFrom n s fuel (j + (s + s)) else []

/-- the inner loop — permute.cc:279-290: `break` at the end of the tensor, and only pairs inside
one block of `2 * gap` positions. -/
def pairsAt (n g s j : ℕ) : List (ℕ × ℕ) :=
  ((List.range s).takeWhile fun i => decide (i + j + s < n)).filterMap fun i =>
    if (i + j) / (g + g) = (i + j + s) / (g + g) then some (i + j, i + j + s) else none

/-- index pairs of one network layer — permute.cc:274-291. -/
def layerPairs (n g s : ℕ) : List (ℕ × ℕ) :=
  (offsFrom n s n (s % g)).flatMap (pairsAt n g s)

/-- all layers in execution order — permute.cc:269-296. -/
def layers (n : ℕ) : List (ℕ × ℕ) :=
  (gaps n).flatMap fun g => (steps g).map fun s => (g, s)

/-- `odd_even_merge_sort` — permute.cc:249-300, after the operands were copied and made secret. -/
def oddEvenMergeSort {m w : ℕ} (cmp : Row m w → Row m w → Bool) (n : ℕ) (c : Cols m w) :
    Option (Cols m w) :=
  (layers n).foldlM (fun c gs =>
    cmpSwap cmp c ((layerPairs n gs.1 gs.2).map Prod.fst) ((layerPairs n gs.1 gs.2).map Prod.snd)) c

/-- `_less` — kernel/hal/ring.cc:457-463: the sign bit of the ring difference. -/
def ringLess {w : ℕ} (x y : BitVec w) : Bool := (x - y).msb

/-- Sort direction (`SortDirection`). -/
inductive Dir | ascending | descending
  deriving DecidableEq, Repr

/-- `scalar_cmp` — permute.cc:50-56. -/
def scalarCmp {w : ℕ} (d : Dir) (x y : BitVec w) : Bool :=
  match d with
  | .ascending => ringLess x y
  | .descending => ringLess y x

/-- operand `k` of a row; `simple_sort1d` enforces `num_keys ≤ inputs.size()`
(permute.cc:1584-1585), so the default is never read. -/
def valAt {m w : ℕ} (a : Row m w) (k : ℕ) : BitVec w := if h : k < m then a ⟨k, h⟩ else 0

/-- the key loop of `_get_cmp_func` — permute.cc:63-70 (the loop variable is the key number
`idx / 2`); carries `(pre_equal, result)`. -/
def cmpKeysLoop {m w : ℕ} (d : Dir) (a b : Row m w) : List ℕ → Bool → Bool → Bool
  | [], _, result => result
  | cur :: ks, preEqual, result =>
    let preEqual := preEqual && (valAt a (cur - 1) == valAt b (cur - 1))
    let current := preEqual && scalarCmp d (valAt a cur) (valAt b cur)
    cmpKeysLoop d a b ks preEqual (result || current)

/-- `_get_cmp_func` without the appended random key — permute.cc:46-91: operand 0 is the most
significant key. -/
def cmpFunc {m w : ℕ} (d : Dir) (numKeys : ℕ) (a b : Row m w) : Bool :=
  cmpKeysLoop d a b (List.range' 1 (numKeys - 1)) true (scalarCmp d (valAt a 0) (valAt b 0))

end Spu.Model.SortNet

import Verif.Model.CheetahOt

set_option autoImplicit false

/-!
# Model of `mpc/cheetah/nonlinear/compare_prot.cc` and `equal_prot.cc`

Flat arrays of both parties as in `Model/CheetahOt.lean`.  Memory that the code allocates and leaves unwritten
(`eq` of the first column in `TraversalAND`) holds arbitrary words `junk`, given for every allocation: by the digits that remain in the `while` of
`TraversalAND` and by the iteration.
-/

namespace Spu.Model.CheetahCmp
open Spu.Model.Circ Spu.Model.CheetahZip Spu.Model.CheetahOt

variable {σ : Type} {w : ℕ} (ot : Ot σ w)

/-- the digits of step 1 — compare_prot.cc:65-77 -/
def digits (radix nd : ℕ) (mask : BitVec w) (x : ℕ → BitVec w) : ℕ → BitVec 8 :=
  fun t => (x (t / nd) >>> (t % nd * radix) &&& mask).setWidth 8

/-- `SetLeafOTMsg` — compare_prot.cc:38-52: message `k` -/
def leafMsg (digit rc re : BitVec 8) (gt : Bool) (k : ℕ) : BitVec 8 :=
  (rc ^^^ (if (if gt then decide (digit.toNat > k) else decide (digit.toNat < k)) then (1 : BitVec 8) else 0)) |||
    (re ^^^ (if digit.toNat = k then (1 : BitVec 8) else 0)) <<< 1

/-- the leaf transfers of `DoCompute` — compare_prot.cc:79-150: one-bit shares of the comparison and the equality of each digit -/
def leaves (radix nd n : ℕ) (gt : Bool) (x : Share w) : M σ (Share w × Share w) := do
  let mask ← liftM (makeBitsMask w radix)
  let d : Fin 2 → ℕ → BitVec 8 := fun p => digits radix nd mask (x p)
  let rc ← ot.fill (n * nd)
  let re ← ot.fill (n * nd)
  let lc := fun t => rc t &&& 1
  let le := fun t => re t &&& 1
  let N := 2 ^ radix
  enforce ((List.range (n * nd)).all fun t => decide ((d 0 t).toNat ≤ N))
  let r ← ot.cmcc 0 N 2 (n * nd) (fun m => leafMsg (d 0 (m / N)) (lc (m / N)) (le (m / N)) gt (m % N)) (d 1)
  return (fun p t => if p = 0 then (lc t).setWidth w else (r t &&& 1).setWidth w,
    fun p t => if p = 0 then (le t).setWidth w else (r t >>> 1 &&& 1).setWidth w)

/-- `TraversalANDWithEqFullBinaryTree` — compare_prot.cc:167-203: the loop from iteration `i`, at most `k` more -/
def fullEqLoop (n nd : ℕ) : ℕ → ℕ → Share w → Share w → M σ (Share w × Share w)
  | 0, _, cmp, eq => pure (cmp, eq)
  | k + 1, i, cmp, eq =>
    let cur := nd / 2 ^ (i - 1)
    if cur = 1 then pure (cmp, eq)
    else do
      let (eq', c) ← corrAnd ot (cur * n / 2) (fun p t => eq p (2 * t + 1)) (fun p t => eq p (2 * t)) (fun p t => cmp p (2 * t))
      fullEqLoop n nd k (i + 1) (fun p t => c p t ^^^ cmp p (2 * t + 1)) eq'

def fullEq (n nd : ℕ) (cmp eq : Share w) : M σ (Share w × Share w) := do
  enforce (decide (0 < nd) && singleBit nd)
  fullEqLoop ot n nd nd 1 cmp eq

/-- `TraversalANDFullBinaryTree` — compare_prot.cc:266-377: the loop from iteration `i`, at most `k` more -/
def fullLoop (junk : ℕ → Share w) (n nd : ℕ) : ℕ → ℕ → Share w → Share w → M σ (Share w)
  | 0, _, cmp, _ => pure cmp
  | k + 1, i, cmp, eq =>
    let cur := nd / 2 ^ (i - 1)
    if cur = 1 then pure cmp
    else
      let lhsEq : Share w := fun p t => eq p (2 * t)
      let rhsEq : Share w := fun p t => eq p (2 * t + 1)
      let lhsCmp : Share w := fun p t => cmp p (2 * t)
      let rhsCmp : Share w := fun p t => cmp p (2 * t + 1)
      if cur = 2 then do
        let c ← bitwiseAnd ot 1 (cur * n / 2) lhsCmp rhsEq
        fullLoop junk n nd k (i + 1) (fun p t => c p t ^^^ rhsCmp p t) eq
      else do
        let ncol := cur / 2
        -- flat index of the sub-array without column 0
        let sub : Share w → Share w := fun a p t => a p (t / (ncol - 1) * ncol + (t % (ncol - 1) + 1))
        let c0 ← bitwiseAnd ot 1 n (fun p r => rhsEq p (r * ncol)) (fun p r => lhsCmp p (r * ncol))
        let (nc, ne) ← corrAnd ot (n * (ncol - 1)) (sub rhsEq) (sub lhsCmp) (sub lhsEq)
        let eq' : Share w := fun p t => if t % ncol = 0 then junk i p t else ne p (t / ncol * (ncol - 1) + t % ncol - 1)
        let cmp' : Share w := fun p t => (if t % ncol = 0 then c0 p (t / ncol) else nc p (t / ncol * (ncol - 1) + t % ncol - 1)) ^^^ rhsCmp p t
        fullLoop junk n nd k (i + 1) cmp' eq'

def full (junk : ℕ → Share w) (n nd : ℕ) (cmp eq : Share w) : M σ (Share w) := do
  enforce (decide (0 < nd) && singleBit nd)
  fullLoop ot junk n nd nd 1 cmp eq

/-- `absl::bit_floor` of a positive number -/
def bitFloor (n : ℕ) : ℕ := 2 ^ Nat.log2 n

/-- the `while` of `TraversalAND` — compare_prot.cc:402-430, at most `k` iterations.  The recursive call is on `bit_floor`, a power of
two, i.e. on the first branch of `TraversalAND`. -/
def travLoop (junk : ℕ → ℕ → Share w) (n nd : ℕ) (cmp eq : Share w) : ℕ → ℕ → Share w → M σ (Share w)
  | 0, _, sub => pure sub
  | k + 1, remain, sub =>
    if remain > 1 then do
      let cur := bitFloor remain
      let cc : Share w := fun p t => if t % cur = 0 then sub p (t / cur) else cmp p ((t / cur + 1) * nd - remain + 1 + (t % cur - 1))
      let ce : Share w := fun p t => if t % cur = 0 then junk remain 0 p t else eq p ((t / cur + 1) * nd - remain + 1 + (t % cur - 1))
      let s ← full ot (junk remain) n cur cc ce
      travLoop junk n nd cmp eq k (remain - cur + 1) s
    else pure sub

/-- `TraversalAND` — compare_prot.cc:379-433 -/
def travAnd (junk : ℕ → ℕ → Share w) (n nd : ℕ) (cmp eq : Share w) : M σ (Share w) :=
  if singleBit nd then full ot (junk 0) n nd cmp eq
  else do
    let cur := bitFloor nd
    let s ← full ot (junk 0) n cur (fun p t => cmp p (t / cur * nd + t % cur)) (fun p t => eq p (t / cur * nd + t % cur))
    travLoop ot junk n nd cmp eq nd (nd - cur + 1) s

/-- the `while` of `TraversalANDWithEq` — compare_prot.cc:231-261 -/
def travEqLoop (n nd : ℕ) (cmp eq : Share w) : ℕ → ℕ → Share w → Share w → M σ (Share w × Share w)
  | 0, _, sc, se => pure (sc, se)
  | k + 1, remain, sc, se =>
    if remain > 1 then do
      let cur := bitFloor remain
      let cc : Share w := fun p t => if t % cur = 0 then sc p (t / cur) else cmp p ((t / cur + 1) * nd - remain + 1 + (t % cur - 1))
      let ce : Share w := fun p t => if t % cur = 0 then se p (t / cur) else eq p ((t / cur + 1) * nd - remain + 1 + (t % cur - 1))
      let (c, e) ← fullEq ot n cur cc ce
      travEqLoop n nd cmp eq k (remain - cur + 1) c e
    else pure (sc, se)

/-- `TraversalANDWithEq` — compare_prot.cc:205-264 -/
def travEq (n nd : ℕ) (cmp eq : Share w) : M σ (Share w × Share w) :=
  if singleBit nd then fullEq ot n nd cmp eq
  else do
    let cur := bitFloor nd
    let (c, e) ← fullEq ot n cur (fun p t => cmp p (t / cur * nd + t % cur)) (fun p t => eq p (t / cur * nd + t % cur))
    travEqLoop ot n nd cmp eq nd (nd - cur + 1) c e

/-- `CompareProtocol::Compute` — compare_prot.cc:56-165, 435-444 -/
def cmpProt (junk : ℕ → ℕ → Share w) (radix bw n : ℕ) (gt : Bool) (x : Share w) : M σ (Share w) := do
  enforce (decide (1 ≤ radix ∧ radix ≤ 8))
  enforce (decide (bw ≤ w))
  let bw := if bw = 0 then w else bw
  let nd := ceilDiv bw radix
  let (c, e) ← leaves ot radix nd n gt x
  travAnd ot junk n nd c e

/-- `CompareProtocol::ComputeWithEq` — compare_prot.cc:56-165, 446-458 -/
def cmpEqProt (radix bw n : ℕ) (gt : Bool) (x : Share w) : M σ (Share w × Share w) := do
  enforce (decide (1 ≤ radix ∧ radix ≤ 8))
  enforce (decide (bw ≤ w))
  let bw := if bw = 0 then w else bw
  let nd := ceilDiv bw radix
  let (c, e) ← leaves ot radix nd n gt x
  travEq ot n nd c e

/-! ## `equal_prot.cc` -/

/-- the digits — equal_prot.cc:62-78: the last one is cut to the remaining bits -/
def eqDigits (radix bw nd : ℕ) (mask maskRem : BitVec w) (x : ℕ → BitVec w) : ℕ → BitVec 8 :=
  fun t =>
    let d : BitVec 8 := (x (t / nd) >>> (t % nd * radix) &&& mask).setWidth 8
    if 0 < bw % radix ∧ t % nd + 1 = nd then d &&& maskRem.setWidth 8 else d

/-- `SetLeafOTMsg` — equal_prot.cc:38-46: message `k` -/
def eqLeafMsg (digit re : BitVec 8) (k : ℕ) : BitVec 8 := re ^^^ (if digit.toNat = k then (1 : BitVec 8) else 0)

/-- the leaf transfers — equal_prot.cc:80-140, transposed to digit-major order -/
def eqLeaves (radix bw nd n : ℕ) (x : Share w) : M σ (Share w) := do
  let mask ← liftM (makeBitsMask w radix)
  let maskRem ← liftM (makeBitsMask w (bw % radix))
  let d : Fin 2 → ℕ → BitVec 8 := fun p => eqDigits radix bw nd mask maskRem (x p)
  let re ← ot.fill (n * nd)
  let le := fun t => re t &&& 1
  let N := 2 ^ radix
  enforce ((List.range (n * nd)).all fun t => decide ((d 0 t).toNat ≤ N))
  let r ← ot.cmcc 0 N 1 (n * nd) (fun m => eqLeafMsg (d 0 (m / N)) (le (m / N)) (m % N)) (d 1)
  let leaf : Share w := fun p t => if p = 0 then (le t).setWidth w else (r t).setWidth w
  return fun p t => leaf p (t % n * nd + t / n)

/-- the tree — equal_prot.cc:151-174, at most `k` iterations; `numel` elements in the array -/
def eqTree (n : ℕ) : ℕ → ℕ → Share w → M σ (Share w)
  | 0, _, e => pure e
  | k + 1, cur, e =>
    if cur > 1 then do
      let half := cur / 2
      let nx ← bitwiseAnd ot 1 (half * n) e (fun p t => e p (half * n + t))
      let remain := cur - 2 * half
      let e' : Share w := if remain > 0 then fun p t => if t < half * n then nx p t else e p (half * 2 * n + (t - half * n)) else nx
      eqTree n k (ceilDiv ((half + remain) * n) n) e'
    else pure e

/-- `EqualProtocol::Compute` — equal_prot.cc:48-181 -/
def eqProt (radix bw n : ℕ) (x : Share w) : M σ (Share w) := do
  enforce (decide (1 ≤ radix ∧ radix ≤ 8))
  let bw := min (if bw = 0 then w else bw) w
  let nd := ceilDiv bw radix
  let e ← eqLeaves ot radix bw nd n x
  eqTree ot n nd nd e

end Spu.Model.CheetahCmp

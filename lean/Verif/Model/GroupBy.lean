import Verif.Model.Radix

set_option autoImplicit false

/-!
# Group-by aggregation (`kernel/hal/group_by_agg.cc`, `kernel/hlo/group_by_agg.cc`)

Values are plaintext vectors with their visibility (`Radix.Val`, conventions of `Verif.Model.Radix`).  All keys and payloads
have `N` elements by their type, which is what the shape checks of `GroupByAgg` establish.
-/

namespace Spu.Model.GroupBy
open Spu.Model Spu.Model.Perm Spu.Model.Circ Spu.Model.Radix

section
variable {w N : ℕ}

/-- equality of `vtype()`: the owner of a private value does not matter -/
def sameKind : Vis → Vis → Bool
  | .pub, .pub => true
  | .priv _, .priv _ => true
  | .secret, .secret => true
  | _, _ => false

/-- `GroupMarkP`/`GroupMarkV` (at the owner) with `end_group_mark = true` (`mpc/common/pv2k.cc:981-988, 1027-1034`);
`_out[numel - 1]` of an empty array is out of range. -/
def endMarks (keys : List (Fin N → BitVec w)) : Option (Fin N → BitVec w) :=
  if N = 0 then none
  else some fun i =>
    if h : i.val + 1 < N then (if keys.all fun x => x i == x ⟨i.val + 1, h⟩ then 0 else 1) else 1

/-- `associative_scan(hal::add, …)` of a vector (`kernel/hal/utils.h:52-127`) -/
def scanAdd (x : Fin N → BitVec w) : Option (Fin N → BitVec w) := (prefixSum N (flat x)).map fun ps i => ps i.val

/-- `_circular_right_shift_1d` (`hal/group_by_agg.cc:62-67`) -/
def shiftRight (x : Fin N → BitVec w) : Fin N → BitVec w := fun i => if i.val = 0 then 0 else x ⟨i.val - 1, by omega⟩

variable {σ : Type} (R : M σ (Equiv.Perm (Fin N))) (ord : List (Fin N))

/-- `apply_inv_permute_1d` (`permute.cc:1856-1863`) with the checks of `MAP_PERM_OP` (`permute.cc:1273-1285`) -/
def applyInvAll (av : Bool) (xs : List (Val w N)) (p : Val w N) : M σ (List (Val w N)) :=
  match xs with
  | [] => failure
  | x :: _ => do
    enforce (xs.all fun y => sameKind y.vis x.vis)
    enforce (match x.vis with
      | .priv _ => xs.all fun y => decide (y.vis = x.vis)
      | _ => true)
    xs.mapM fun y => applyInv R ord av y p

/-- `_group_mark` with `end_group_mark = true` (`hal/group_by_agg.cc:37-58`) -/
def groupMark (keys : List (Val w N)) : M σ (Val w N) :=
  match keys with
  | [] => failure
  | k :: _ => do
    enforce (!k.vis.isSecret)
    enforce (keys.all fun x => decide (x.vis = k.vis))
    let out ← (endMarks (keys.map (·.val)) : Option _)
    return ⟨k.vis, false, w, out⟩

/-- what both aggregations compute from the keys -/
structure Plan (w N : ℕ) where
  /-- `private_perm` -/
  perm : Val w N
  /-- `group_marks` -/
  marks : Val w N
  /-- `group_mark_perm` -/
  markPerm : Val w N
  /-- `output_order_keys` -/
  outKeys : List (Val w N)

/-- first part of both aggregations (`hal/group_by_agg.cc:85-95, 128-139`) -/
def plan (av : Bool) (keys : List (Val w N)) : M σ (Plan w N) := do
  let perm ← genInvPermKeys R ord av keys true none
  let sorted ← applyInvAll R ord av keys perm
  let marks ← groupMark sorted
  let markPerm ← genInvPermKeys R ord av [marks] false none
  let outKeys ← applyInvAll R ord av sorted markPerm
  return ⟨perm, marks, markPerm, outKeys⟩

/-- sums per group of a vector in key order (`hal/group_by_agg.cc:105-111`, also `143-149` and `180-187`) -/
def segSum (av : Bool) (x markPerm : Val w N) : M σ (Val w N) := do
  let s ← (scanAdd x.val : Option _)
  let ys ← applyInvAll R ord av [⟨x.vis, x.uns, w, s⟩] markPerm
  let y ← (ys.head? : Option _)
  return ⟨y.vis, x.uns, w, fun i => y.val i - shiftRight y.val i⟩

/-- `private_groupby_sum_1d` (`hal/group_by_agg.cc:80-119`) -/
def groupBySum (av : Bool) (keys pays : List (Val w N)) : M σ (List (Val w N)) := do
  let pl ← plan R ord av keys
  let permuted ← applyInvAll R ord av pays pl.perm
  let sums ← permuted.mapM fun x => segSum R ord av x pl.markPerm
  return pl.outKeys ++ sums

/-- a result column: the length depends on `unsafe_drop_rest` -/
structure Col (w : ℕ) where
  vis : Vis
  vals : List (BitVec w)

/-- a vector as a column -/
def toCol (x : Val w N) : Col w := ⟨x.vis, List.ofFn x.val⟩

/-- `hal::slice(ctx, x, {0}, {n})`; an end beyond the vector throws -/
def Col.cut (n : ℕ) (x : Col w) : Option (Col w) := if n ≤ x.vals.length then some { x with vals := x.vals.take n } else none

/-- the number of distinct keys as `private_groupby_avg_1d` obtains it (`hal/group_by_agg.cc:153-169`) -/
def keyCount (marks : Val w N) : Option ℕ :=
  match associativeReduce (· + ·) (List.ofFn marks.val) with
  | [n] => if 0 < n.toInt then some n.toInt.toNat else none
  | _ => none

/-- `private_groupby_avg_1d` (`hal/group_by_agg.cc:123-210`).  A payload comes with the flag whether its data type is an
integer (it is cast to fixed point by a shift, `hal/type_cast.cc`).  `avg s c` stands for
`mul(s, reciprocal_goldschmidt_positive(c))` together with its visibility. -/
def groupByAvg (f : ℕ) (avg : Col w → Col w → M σ (Col w)) (av : Bool) (drop : Bool) (keys : List (Val w N))
    (pays : List (Val w N × Bool)) : M σ (List (Col w)) := do
  let pl ← plan R ord av keys
  let one : Val w N := ⟨.pub, false, w, fun _ => (1 : BitVec w) <<< f⟩
  let count ← segSum R ord av one pl.markPerm
  let n ← (if drop then keyCount pl.marks else some N : Option ℕ)
  let count ← ((toCol count).cut n : Option _)
  let outKeys ← (pl.outKeys.mapM fun k => (toCol k).cut n : Option _)
  let permuted ← applyInvAll R ord av (pays.map (·.1)) pl.perm
  let avgs ← (permuted.zip (pays.map (·.2))).mapM fun x => do
    let s ← segSum R ord av x.1 pl.markPerm
    let s ← ((toCol s).cut n : Option _)
    let s : Col w := if x.2 then { s with vals := s.vals.map fun (b : BitVec w) => b <<< f } else s
    avg s count
  return outKeys ++ avgs

/-- `AggFunc` (`hlo/group_by_agg.h`) -/
inductive Agg
  | sum
  | count
  | avg
  | max
  | min
  | percentile
  deriving DecidableEq

/-- the options that `GroupByAgg` reads: `mode == PrefixSumMode`, `output_format == OutputOrder`,
`unsafe_output_order_drop_rest` -/
structure Options where
  prefixSumMode : Bool
  outputOrder : Bool
  dropRest : Bool

/-- loop of `_all_pub_or_pri_with_same_owner` (`hlo/group_by_agg.cc:27-44`); `rank` is `pri_rank` -/
def allPubOrOneOwner : List Vis → Option ℕ → Bool
  | [], _ => true
  | .pub :: l, rank => allPubOrOneOwner l rank
  | .priv o :: l, none => allPubOrOneOwner l (some o)
  | .priv o :: l, some r => if r ≠ o then false else allPubOrOneOwner l (some r)
  | .secret :: _, _ => false

/-- `GroupByAgg` (`hlo/group_by_agg.cc:47-146`); `numValid` is `valid_bits.size()` -/
def groupByAgg (f : ℕ) (avg : Col w → Col w → M σ (Col w)) (av : Bool) (agg : Agg) (numValid : ℕ) (opt : Options)
    (keys : List (Val w N)) (pays : List (Val w N × Bool)) : M σ (List (Col w)) := do
  enforce (decide (numValid ≤ 1))
  let k0 ← (keys.head? : Option _)
  let p0 ← (pays.head? : Option _)
  enforce (keys.all fun k => sameKind k.vis k0.vis)
  enforce (pays.all fun p => sameKind p.1.vis p0.1.vis)
  if N = 0 then return keys.map toCol ++ pays.map fun p => toCol p.1
  else
    match agg with
    | .sum => do
      enforce (!opt.prefixSumMode && opt.outputOrder)
      enforce (allPubOrOneOwner (keys.map (·.vis)) none)
      let r ← groupBySum R ord av keys (pays.map (·.1))
      return r.map toCol
    | .avg => do
      enforce (!opt.prefixSumMode && opt.outputOrder)
      enforce (allPubOrOneOwner (keys.map (·.vis)) none)
      groupByAvg R ord f avg av opt.dropRest keys pays
    | _ => failure

end
end Spu.Model.GroupBy

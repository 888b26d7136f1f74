import Verif.Model.Ten
import Verif.Model.Vectorize
import Mathlib.Algebra.Ring.Defs
import Mathlib.Order.Defs.LinearOrder

set_option autoImplicit false

/-!
# Reductions over axes and windows, arg-max and scatter

(`kernel/hlo/reduce.cc`, `kernel/hlo/select_and_scatter.cc`, `kernel/hlo/utils.cc`, `device/pphlo/pphlo_executor.cc`)

Several operands that are reduced together have the same shape and are one tensor of tuples here.  A reducer works
element-wise.  `none` is an exception.
-/

namespace Spu.Model.RW
open Spu.Spec Spu.Model

variable {α β : Type}

/-- `TreeReduce` (`reduce.cc:31-105`) along one axis: every line is reduced as in `treeReduce` (C10) -/
def treeAxis (op : α → α → α) (axis : ℕ) (t : Ten α) : Ten α :=
  let len := t.shape.getD axis 0
  ⟨t.shape.set axis (min len 1), fun i => (treeReduce op ((List.range len).map fun k => t.get (i.set axis k))).headD (t.get i)⟩

/-! ## `Reduce` -/

/-- the axes that stay, in order -/
def keptAxes (dims : List ℕ) (rank : ℕ) : List ℕ := (List.range rank).filter fun a => decide (a ∉ dims)

/-- the axes that are reduced, in order -/
def redAxes (dims : List ℕ) (rank : ℕ) : List ℕ := (List.range rank).filter fun a => decide (a ∈ dims)

/-- `out_shape` (`reduce.cc:343-346`) -/
def outShape (dims : List ℕ) (sh : Shape) : Shape := (List.range sh.length).map fun a => if a ∈ dims then 1 else sh.getD a 0

/-- `Reduce` (`reduce.cc:270-363`) -/
def reduce (op : α → α → α) (dims : List ℕ) (init : α) (ignore : Bool) (t : Ten α) : Option (Ten α) := do
  let rank := t.shape.length
  let tt ← t.transpose (keptAxes dims rank ++ redAxes dims rank)
  let fl ← tt.reshape (permuted (keptAxes dims rank) t.shape ++ [size (permuted (redAxes dims rank) t.shape)])
  let r := treeAxis op (keptAxes dims rank).length fl
  let r ← r.reshape (outShape dims t.shape)
  return if ignore then r else r.map (op · init)

/-- `ReduceOp` (`pphlo_executor.cc:834-868`): the initial value is ignored unless one of the dimensions is number 0 -/
def reduceOp (op : α → α → α) (dims : List ℕ) (init : α) (t : Ten α) : Option (Ten α) := do
  let r ← reduce op dims init (decide (0 ∉ dims)) t
  r.reshape (permuted (keptAxes dims t.shape.length) t.shape)

/-! ## Windows -/

/-- the number of windows (`utils.cc:53-56`); `W ≤ B`, otherwise the first slice fails -/
def numWin : Shape → Shape → List ℕ → Option Shape
  | [], [], [] => some []
  | b :: bs, w :: ws, s :: ss => do
    let r ← numWin bs ws ss
    if s = 0 ∨ b < w then none else some (((b - w) / s + 1) :: r)
  | _, _, _ => none

/-- `expandWindow` without padding (`utils.cc:37-87`) -/
def expandWindow (base : Ten α) (W : Shape) (S : List ℕ) : Option (Ten α) := do
  let N ← numWin base.shape W S
  let ws ← (visit N (numel N) (List.replicate N.length 0)).mapM fun n => do
    let st := List.zipWith (· * ·) n S
    let w ← base.slice st (List.zipWith (· + ·) st W) (List.replicate W.length 1)
    return w.unsqueeze
  let res ← Ten.concat0 ws
  if ws.length = numel N then res.reshape (N ++ W) else none

/-- `expandWindow` with padding (`utils.cc:89-116`) -/
def expandPad (base : Ten α) (W : Shape) (S : List ℕ) (lo hi : List Int) (x : α) : Option (Ten α) := do
  if (lo ++ hi).any (· ≠ 0) then
    let p ← base.pad x lo hi (List.replicate base.shape.length 0)
    expandWindow p W S
  else expandWindow base W S

/-- `ReduceWindowWithoutDilation` (`reduce.cc:107-186`) without a mask -/
def reduceWindowPlain (op : α → α → α) (W : Shape) (S : List ℕ) (lo hi : List Int) (init : α) (ignore : Bool) (ret : Shape)
    (t : Ten α) : Option (Ten α) := do
  let e ← expandPad t W S lo hi init
  let e ← e.reshape (ret ++ [size W])
  let r ← (treeAxis op ret.length e).reshape ret
  return if ignore then r else r.map (op · init)

/-- the end of a window with dilation (`reduce.cc:239-244`) -/
def winEnd : List ℕ → Shape → List ℕ → List ℕ
  | b :: bs, w :: ws, d :: ds => (b + w + (w - 1) * (d - 1)) :: winEnd bs ws ds
  | _, _, _ => []

/-- `ReduceWindowImpl` (`reduce.cc:188-268`) without a mask -/
def reduceWindow (op : α → α → α) (W : Shape) (S : List ℕ) (lo hi : List Int) (baseDil D : List ℕ) (init : α) (ignore : Bool)
    (ret : Shape) (t : Ten α) : Option (Ten α) := do
  if D.all (· = 1) && baseDil.all (· = 1) then reduceWindowPlain op W S lo hi init ignore ret t
  else
    let p ← t.pad init lo hi (baseDil.map (· - 1))
    let rs ← (visit ret (numel ret) (List.replicate ret.length 0)).mapM fun n => do
      let st := List.zipWith (· * ·) n S
      let w ← p.slice st (winEnd st W D) D
      let r ← reduce op (List.range p.shape.length) init false w
      return r.unsqueeze
    if rs.length = numel ret then do
      let c ← Ten.concat0 rs
      c.reshape ret
    else none

/-- `ReduceWindowOp` (`pphlo_executor.cc:870-926`): padding and dilation of the base have become a `PadOp`; the initial value
is ignored unless an extent of the window is zero -/
def reduceWindowOp (op : α → α → α) (W : Shape) (S D : List ℕ) (init : α) (ret : Shape) (t : Ten α) : Option (Ten α) :=
  reduceWindow op W S (List.replicate W.length 0) (List.replicate W.length 0) (List.replicate W.length 1) D init (decide (0 ∉ W)) ret t

/-! ## Arg-max -/

/-- the reducer of `ArgMax` (`reduce.cc:507-526`); an element is a value with its mask over the places of the window -/
def argOp [LinearOrder β] (l r : β × (ℕ → Bool)) : β × (ℕ → Bool) :=
  let c := decide (r.1 < l.1)
  (if c then l.1 else r.1, fun k => if c then l.2 k else r.2 k)

/-- `ArgMax` (`reduce.cc:480-528`) without the fast path: row `k` of the unit matrix goes with place `k` of the window -/
def argMax [LinearOrder β] (W : Shape) (S : List ℕ) (ret : Shape) (t : Ten β) : Option (Ten (β × (ℕ → Bool))) := do
  let e ← expandWindow t W S
  let e ← e.reshape (ret ++ [size W])
  let m : Ten (β × (ℕ → Bool)) := ⟨e.shape, fun i => (e.get i, fun k => decide (k = i.getD ret.length 0))⟩
  (treeAxis argOp ret.length m).reshape ret

/-- `ArgMax1x2x2x1NoPaddingWithoutDilation` (`reduce.cc:371-478`) -/
def argMaxFast [LinearOrder β] (s1 s2 : ℕ) (t : Ten β) : Option (Ten (β × (ℕ → Bool))) :=
  match t.shape with
  | [a, h, w, c] => do
    let lhs ← t.slice [0, 0, 0, 0] [a, h, w - 1, c] [1, 1, s2, 1]
    let rhs ← t.slice [0, 0, 1, 0] [a, h, w, c] [1, 1, s2, 1]
    let hm ← Ten.zip (fun x y => let c := decide (y < x); (if c then x else y, fun k : ℕ => if k = 0 then c else !c)) lhs rhs
    match hm.shape with
    | [a', h', w', c'] => do
      let up ← hm.slice [0, 0, 0, 0] [a', h' - 1, w', c'] [1, s1, 1, 1]
      let bt ← hm.slice [0, 1, 0, 0] [a', h', w', c'] [1, s1, 1, 1]
      Ten.zip (fun u b => let v := decide (b.1 < u.1)
        (if v then u.1 else b.1, fun k : ℕ => if k < 2 then v && u.2 k else !v && b.2 (k - 2))) up bt
    | _ => none
  | _ => none

/-! ## Scatter -/

section
variable {R : Type} [CommRing R]

/-- one place of the windows (`select_and_scatter.cc:66-91`) -/
def scatterPlace (init : R) (B W : Shape) (S : List ℕ) (N : Shape) (selected : Ten R) (widx : ℕ) : Option (Ten R) := do
  let sel ← selected.slice [0, widx] [size N, widx + 1] [1, 1]
  let sel ← sel.reshape N
  let wi ← unflattenIndex widx W
  let p ← sel.pad init (wi.map Int.ofNat) (List.zipWith (fun (w : ℕ) (i : ℕ) => (w : Int) - i - 1) W wi) (S.map (· - 1))
  if p.shape = B then some p else none

/-- `ScatterWindow` (`select_and_scatter.cc:26-110`); `scatter` reduces -/
def scatterWindow (scatter : R → R → R) (init : R) (B W : Shape) (S : List ℕ) (source : Ten R) (onehot : Ten Bool) :
    Option (Ten R) := do
  let N := source.shape
  if N.length ≠ W.length ∨ N.length ≠ S.length ∨ onehot.shape ≠ N ++ [size W] then none
  else
    let oh ← onehot.reshape [size N, size W]
    let s1 ← source.reshape [size N]
    let selected ← Ten.zip (fun (x : R) (b : Bool) => x * (if b then 1 else 0)) ⟨[size N, size W], fun i => s1.get (i.take 1)⟩ oh
    let ps ← (List.range (size W)).mapM (scatterPlace init B W S N selected)
    let res ← Ten.concat0 ps
    let res ← res.reshape (size W :: B)
    (treeAxis scatter 0 res).reshape B

/-- `MaxPoolScatter` (`select_and_scatter.cc:112-138`) -/
def maxPoolScatter (B W : Shape) (S : List ℕ) (source : Ten R) (onehot : Ten Bool) : Option (Ten R) :=
  scatterWindow (· + ·) 0 B W S source onehot

/-- `SelectAndScatter` (`select_and_scatter.cc:140-221`), without padding as the executor calls it -/
def selectAndScatter (select : β → β → Bool) (scatter : R → R → R) (init : R) (W : Shape) (S : List ℕ) (base : Ten β)
    (source : Ten R) : Option (Ten R) := do
  let N := source.shape
  let tiled ← expandWindow base W S
  if tiled.shape ≠ N ++ W then none
  else
    let t2 ← tiled.reshape [size N, size W]
    let m : Ten (β × ℕ) := ⟨t2.shape, fun i => (t2.get i, i.getD 1 0)⟩
    let red := treeAxis (fun l r => if select l.1 r.1 then l else r) 1 m
    let onehot : Ten Bool := ⟨[size N, size W], fun i => decide ((red.get [i.getD 0 0, 0]).2 = i.getD 1 0)⟩
    let oh ← onehot.reshape (N ++ [size W])
    scatterWindow scatter init base.shape W S source oh

end

end Spu.Model.RW

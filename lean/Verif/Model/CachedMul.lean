import Verif.Model.Cache
import Verif.Model.Dealer
import Verif.Model.Semi2k

set_option autoImplicit false

/-!
# `MulOpen`, `MulAA`, `SquareA`, `MatMulAA` with cache and dealer state
(`mpc/semi2k/arithmetic.cc:167-324`, `:448-461`)

All parties are modelled together.  They run the same program, so their caches have the same
entries; a cached word is the tuple of all parties' copies (`Fin n → BitVec w`).
`val x i` is party `i`'s share of the array view `x`, by flat row-major index; arrays are immutable.
The storage unit is a ring element (slices of the database are whole elements: the 32 MiB slice is a
multiple of the element size).
-/

namespace Spu.Model.CachedMul
open Spu.Model.Dealer Spu.Model.Cache

variable {n w : ℕ} [NeZero n] {Seed : Type} [Inhabited Seed]

/-- descriptor with `replay.size` -/
abbrev SDesc (n : ℕ) (Seed : Type) := Desc n Seed × ℕ

abbrev Look (n w : ℕ) (Seed : Type) := Lookup (Fin n → BitVec w) (SDesc n Seed)

/-- `x_cache.enabled ? &x_cache.replay_desc : nullptr` (`arithmetic.cc:203-204`, `:219-220`): a default
`ReplayDesc` has status `Init`; a hit carries the stored descriptor with status `Replay` or
`TransposeReplay` (`beaver_cache.cc:74-75`, `:89-90`). -/
def descOf : Look n w Seed → Option (Desc n Seed)
  | .disabled => none
  | .miss => some ⟨.init, fun _ => 0, fun _ => default, fun _ => default⟩
  | .hit d _ => some { d.1 with status := .replay }
  | .hitTransposed d _ => some { d.1 with status := .transposeReplay }

/-- the public opening supplied by the cache for party `i`, element `idx` -/
def hitAt (l : Look n w Seed) (i : Fin n) (idx : ℕ) : Option (BitVec w) :=
  match l with
  | .hit _ o => some ((o.getD idx (fun _ => 0)) i)
  | _ => none

/-- `if (x_cache.enabled && status == Init) SetCache(x, desc, x_a)` (`arithmetic.cc:251-256`). -/
def storeIf (S : ℕ) (hS : 0 < S) (l : Look n w Seed)
    (c : Cache (Fin n → BitVec w) (SDesc n Seed)) (x : View) (d : Option (Desc n Seed))
    (xa : Fin n → Arr w) : Option (Cache (Fin n → BitVec w) (SDesc n Seed)) :=
  match l, d with
  | .miss, some d =>
    Cache.set S hS c x (d, x.shape.prod) ((List.range x.shape.prod).map (fun idx i => xa i idx))
  | _, _ => some c

/-- `x == y && x_cache.enabled && status == Init` disables the second cache (`arithmetic.cc:178-181`). -/
def fixSecond (x y : View) (lx ly : Look n w Seed) : Look n w Seed :=
  match lx with
  | .miss => if x = y then .disabled else ly
  | _ => ly

structure Sys (n w : ℕ) (Seed : Type) where
  dealer : Dealer n Seed
  cache : Cache (Fin n → BitVec w) (SDesc n Seed)

/-- `GetCache` -/
def look (s : Sys n w Seed) (x : View) (t : Bool) : Option (Look n w Seed) :=
  Cache.get Prod.snd 1 s.cache x t

/-- `MulAA::proc` (`arithmetic.cc:264-282`); `none` = exception. -/
def mulSys (K : Ks w Seed) (adj : Fin n) (S : ℕ) (hS : 0 < S) (val : View → Fin n → Arr w)
    (s : Sys n w Seed) (x y : View) : Option ((Fin n → Arr w) × Sys n w Seed) :=
  if x.shape ≠ y.shape then none else do
  let lx ← look s x false
  let ly0 ← look s y false
  let ly := fixSecond x y lx ly0
  let r := Dealer.mul K adj s.dealer x.shape.prod (descOf lx) (descOf ly)
  let a := r.1.1; let b := r.1.2.1; let c := r.1.2.2
  let xa : Fin n → Arr w := fun i idx =>
    Semi2k.openMasked (hitAt lx i idx) (fun p => val x p idx) (fun p => a p idx) i
  let yb : Fin n → Arr w := fun i idx =>
    Semi2k.openMasked (hitAt ly i idx) (fun p => val y p idx) (fun p => b p idx) i
  let c1 ← storeIf S hS lx s.cache x r.2.1.1 xa
  let c2 ← storeIf S hS ly c1 y r.2.1.2 yb
  let z : Fin n → Arr w := fun i idx =>
    Semi2k.mulAA (hitAt lx i idx) (hitAt ly i idx) (fun p => val x p idx) (fun p => val y p idx)
      (fun p => a p idx) (fun p => b p idx) (fun p => c p idx) i
  return (z, ⟨r.2.2, c2⟩)

/-- `SquareA::proc` (`arithmetic.cc:284-324`). -/
def squareSys (K : Ks w Seed) (adj : Fin n) (S : ℕ) (hS : 0 < S) (val : View → Fin n → Arr w)
    (s : Sys n w Seed) (x : View) : Option ((Fin n → Arr w) × Sys n w Seed) := do
  let lx ← look s x false
  let r := Dealer.square K adj s.dealer x.shape.prod (descOf lx)
  let a := r.1.1; let b := r.1.2
  let xa : Fin n → Arr w := fun i idx =>
    Semi2k.openMasked (hitAt lx i idx) (fun p => val x p idx) (fun p => a p idx) i
  let c1 ← storeIf S hS lx s.cache x r.2.1 xa
  let z : Fin n → Arr w := fun i idx =>
    Semi2k.squareA (hitAt lx i idx) (fun p => val x p idx) (fun p => a p idx) (fun p => b p idx) i
  return (z, ⟨r.2.2, c1⟩)

/-- the public opening of a `rows × cols` matrix supplied by the cache for party `i`; a transposed hit
was stored for the `cols × rows` array and is read transposed (`beaver_cache.cc:91`). -/
def hitMat (rows cols : ℕ) (l : Look n w Seed) (i : Fin n) : Option (Mat w) :=
  match l with
  | .hit _ o => some (fun r c => (o.getD (r * cols + c) (fun _ => 0)) i)
  | .hitTransposed _ o => some (fun r c => (o.getD (c * rows + r) (fun _ => 0)) i)
  | _ => none

/-- `x_a` of a matrix operand at party `i` (`arithmetic.cc:232-249`) -/
def openMat (hit : Option (Mat w)) (x a : Fin n → Mat w) (i : Fin n) : Mat w :=
  match hit with
  | some v => v
  | none => fun r c => allReduce (· + ·) (fun p => x p r c - a p r c) i

/-- `MatMulAA::proc` (`arithmetic.cc:448-461`). -/
def dotSys (K : Ks w Seed) (adj : Fin n) (S : ℕ) (hS : 0 < S) (val : View → Fin n → Arr w)
    (s : Sys n w Seed) (x y : View) : Option ((Fin n → Mat w) × Sys n w Seed) :=
  match x.shape, y.shape with
  | [m, k], [k', nn] =>
    if k ≠ k' then none else do
    let lx ← look s x true
    let ly0 ← look s y true
    let ly := fixSecond x y lx ly0
    let r := Dealer.dot K adj s.dealer m nn k (descOf lx) (descOf ly)
    let a := r.1.1; let b := r.1.2.1; let c := r.1.2.2
    let xa : Fin n → Mat w := fun i => openMat (hitMat m k lx i) (fun p => asMat k (val x p)) a i
    let yb : Fin n → Mat w := fun i => openMat (hitMat k nn ly i) (fun p => asMat nn (val y p)) b i
    let c1 ← storeIf S hS lx s.cache x r.2.1.1 (fun i idx => xa i (idx / k) (idx % k))
    let c2 ← storeIf S hS ly c1 y r.2.1.2 (fun i idx => yb i (idx / nn) (idx % nn))
    let z : Fin n → Mat w := fun i r c' =>
      let z0 := mmul k (xa i) (b i) r c' + mmul k (a i) (yb i) r c' + c i r c'
      if i = 0 then z0 + mmul k (xa i) (yb i) r c' else z0
    return (z, ⟨r.2.2, c2⟩)
  | _, _ => none

/-- requests of a program -/
inductive Req where
  | enable (x : View)
  | disable (x : View)
  | mul (x y : View)
  | square (x : View)
  | dot (x y : View)

/-- the state after a request; a request that throws leaves the state unchanged
(the program is aborted in the code, so this case is never continued) -/
def next (K : Ks w Seed) (adj : Fin n) (S : ℕ) (hS : 0 < S) (val : View → Fin n → Arr w)
    (s : Sys n w Seed) : Req → Sys n w Seed
  | .enable x => { s with cache := Cache.enable s.cache x }
  | .disable x => { s with cache := Cache.disable s.cache x }
  | .mul x y => ((mulSys K adj S hS val s x y).map Prod.snd).getD s
  | .square x => ((squareSys K adj S hS val s x).map Prod.snd).getD s
  | .dot x y => ((dotSys K adj S hS val s x y).map Prod.snd).getD s

def runSys (K : Ks w Seed) (adj : Fin n) (S : ℕ) (hS : 0 < S) (val : View → Fin n → Arr w)
    (seed : Fin n → Seed) (rs : List Req) : Sys n w Seed :=
  rs.foldl (next K adj S hS val) ⟨start seed, Cache.empty⟩

end Spu.Model.CachedMul

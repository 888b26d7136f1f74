import Mathlib.Data.List.FinRange
import Mathlib.Data.List.OfFn

set_option autoImplicit false

/-!
# Visibility inference of the compiler and what running the compiled program shows

(`dialect/pphlo/transforms/visibility_inference.{h,cc}`, `hlo_legalize_to_pphlo.cc`, `lower_conversion_cast.cc`,
`kernel/hlo/control_flow.cc`, `kernel/hlo/casting.cc`)

A program is a block in SSA form: values are numbered in the order in which they come into scope; a region sees the values
of the enclosing blocks and then its arguments.  A value is the list of the entries of a tensor.  `none` is an exception, a
program that is not well formed, or a loop that does not end.
-/

namespace Spu.Model.Vis

/-- a tensor -/
abbrev V := List ℤ

/-- `Visibility` (`dialect/pphlo/IR/types.h`) -/
inductive Vis
  | pub | sec
  deriving DecidableEq

/-- `computeCommonVisibility` (`dialect/pphlo/IR/types.cc:91-97`) -/
def common (l : List Vis) : Vis := if l.any (· = .sec) then .sec else .pub

/-- blocks and operations; the last argument of an operation is the rest of the block -/
inductive Blk
  | ret (vs : List ℕ)
  /-- constant, iota, epsilon, is_finite -/
  | const (v : V) (k : Blk)
  /-- an operation without region and with `n` results (usually one, two for topk) -/
  | prim (n : ℕ) (f : List V → Fin n → V) (args : List ℕ) (k : Blk)
  /-- custom call `spu.reveal` -/
  | reveal (a : ℕ) (k : Blk)
  | ifte (p : ℕ) (t e : Blk) (k : Blk)
  | case (i : ℕ) (n : ℕ) (bs : Fin n → Blk) (k : Blk)
  | whl (args : List ℕ) (c b : Blk) (k : Blk)
  /-- reduction of `len` entries; the body gets the accumulators and then the entries -/
  | reduce (len : ℕ) (args inits : List ℕ) (b : Blk) (k : Blk)
  /-- sort of `len` entries; the comparator gets two entries of each operand -/
  | sort (len : ℕ) (args : List ℕ) (c : Blk) (k : Blk)

/-- values by their numbers -/
def look {α : Type} (l : List α) (is : List ℕ) : Option (List α) := is.mapM (l[·]?)

/-- the loop of `inferWhile` (`visibility_inference.cc:143-169`); it may take `n` rounds -/
def loopVis (f : List Vis → Option (List Vis)) : ℕ → List Vis → Option (List Vis)
  | 0, _ => none
  | n + 1, v => do
    let r ← f v
    if r = v then some r else loopVis f n r

/-- `inferReduce` (`visibility_inference.h:43-103`): the visibility of the arguments and of the results -/
def reduceVis (f : List Vis → Option (List Vis)) (v : List Vis) : Option (List Vis × List Vis) := do
  let r ← f v
  if r.length = v.length then
    if r = v then some (r, r)
    else do
      let r' ← f r
      some (r, r')
  else none

/-- the result visibilities of an operation with branches (`visibility_inference.cc:66-85`, `:114-129`) -/
def branchVis (c : Vis) (rs : List (List Vis)) : Option (List Vis) :=
  match rs with
  | [] => none
  | r :: _ => if rs.all (·.length = r.length) then some ((List.range r.length).map fun j => common (c :: rs.map (·.getD j .pub))) else none

/-- two arguments of the comparator for each operand (`visibility_inference.cc:190-197`) -/
def twice {α : Type} (l : List α) : List α := l.flatMap fun a => [a, a]

/-- `inferRegion` and all that it calls: the visibility of what a block returns.  `N` bounds the rounds of each loop. -/
def infer (N : ℕ) : Blk → List Vis → Option (List Vis)
  | .ret vs, G => look G vs
  | .const _ k, G => infer N k (G ++ [.pub])
  | .prim n _ args k, G => do
    let vs ← look G args
    infer N k (G ++ List.replicate n (common vs))
  | .reveal a k, G => do
    let _ ← G[a]?
    infer N k (G ++ [.pub])
  | .ifte p t e k, G => do
    let c ← G[p]?
    let rt ← infer N t G
    let re ← infer N e G
    let r ← branchVis c [rt, re]
    infer N k (G ++ r)
  | .case i n bs k, G => do
    let c ← G[i]?
    let rs ← (List.finRange n).mapM fun j => infer N (bs j) G
    let r ← branchVis c rs
    infer N k (G ++ r)
  | .whl args c b k, G => do
    let v0 ← look G args
    let v ← loopVis (fun v => infer N b (G ++ v)) N v0
    let _ ← infer N c (G ++ v)
    infer N k (G ++ v)
  | .reduce _ args inits b k, G => do
    let va ← look G args
    let vi ← look G inits
    let (_, r) ← reduceVis (fun v => infer N b (G ++ v ++ v)) (List.zipWith (fun a i => common [a, i]) va vi)
    infer N k (G ++ r)
  | .sort _ args c k, G => do
    let vs ← look G args
    let rc ← infer N c (G ++ twice vs)
    let vc ← rc[0]?
    infer N k (G ++ vs.map fun v => common [vc, v])

/-! ## Running the compiled program -/

/-- what everybody can see: a value whose type is public, a secret value that is revealed because it is converted to a
public type (`hlo_legalize_to_pphlo.cc:205-230`, `lower_conversion_cast.cc:28-38`, `kernel/hlo/casting.cc:31-37`), a value
that the program asks to reveal -/
inductive Obs
  | pub (v : V) | converted (v : V) | asked (v : V)
  deriving DecidableEq

/-- values whose type is public -/
def see (vs : List Vis) (xs : List V) : List Obs :=
  (vs.zip xs).filterMap fun p => if p.1 = .pub then some (.pub p.2) else none

/-- operands of type `v` passed as type `u` -/
def convert (vs us : List Vis) (xs : List V) : List Obs :=
  ((vs.zip us).zip xs).filterMap fun p => if p.1.1 = .sec ∧ p.1.2 = .pub then some (.converted p.2) else none

/-- `getBooleanValue` -/
def truth (v : V) : Bool := v.headD 0 ≠ 0

/-- the branch that is taken (`control_flow.cc:60-62`) -/
def branch (n : ℕ) (v : V) : ℕ :=
  let i := v.headD 0
  if i < 0 ∨ (n : ℤ) - 1 < i then n - 1 else i.toNat

/-- a run: results and what is seen -/
abbrev Res := Option (List V × List Obs)

/-- the loop of `While` (`control_flow.cc:113-143`) -/
def loopRun (cond : List V → Option (Bool × List Obs)) (body : List V → Res) : ℕ → List V → Res
  | 0, _ => none
  | n + 1, st => do
    let (c, t1) ← cond st
    if c then do
      let (st', t2) ← body st
      let (r, t3) ← loopRun cond body n st'
      some (r, t1 ++ t2 ++ t3)
    else some (st, t1)

/-- reduction in order of the entries -/
def reduceRun (body : List V → Res) (xs : List V) : List ℕ → List V → Res
  | [], st => some (st, [])
  | i :: is, st => do
    let (st', t1) ← body (st ++ xs.map fun x => [x.getD i 0])
    let (r, t2) ← reduceRun body xs is st'
    some (r, t1 ++ t2)

/-- the table of the comparator, row by row -/
def sortTable (cmp : List V → Res) (xs : List V) : List (ℕ × ℕ) → Option (List ((ℕ × ℕ) × Bool) × List Obs)
  | [] => some ([], [])
  | (i, j) :: ps => do
    let (r, t1) ← cmp (xs.flatMap fun x => [[x.getD i 0], [x.getD j 0]])
    let b ← r[0]?
    let (rest, t2) ← sortTable cmp xs ps
    some (((i, j), truth b) :: rest, t1 ++ t2)

/-- the order of the entries according to a table -/
def sortPerm (len : ℕ) (tab : List ((ℕ × ℕ) × Bool)) : List ℕ :=
  (List.range len).mergeSort fun i j => (tab.lookup (i, j)).getD false

/-- Run a block.  `G` are the visibilities of the values in scope, as inferred; `fuel` bounds the rounds of each loop. -/
def run (N fuel : ℕ) : Blk → List Vis → List V → Res
  | .ret vs, _, e => do
    let xs ← look e vs
    some (xs, [])
  | .const v k, G, e => do
    let (r, t) ← run N fuel k (G ++ [.pub]) (e ++ [v])
    some (r, .pub v :: t)
  | .prim n f args k, G, e => do
    let vs ← look G args
    let xs ← look e args
    let ys := List.ofFn (f xs)
    let us := List.replicate n (common vs)
    let (r, t) ← run N fuel k (G ++ us) (e ++ ys)
    some (r, see us ys ++ t)
  | .reveal a k, G, e => do
    let x ← e[a]?
    let (r, t) ← run N fuel k (G ++ [.pub]) (e ++ [x])
    some (r, .asked x :: t)
  | .ifte p t e k, G, env => do
    let c ← G[p]?
    let rt ← infer N t G
    let re ← infer N e G
    let rv ← branchVis c [rt, re]
    let x ← env[p]?
    let (ys, o) ← (if c = .sec then do
        let (y1, o1) ← run N fuel t G env
        let (y2, o2) ← run N fuel e G env
        some (if truth x then y1 else y2, o1 ++ o2)
      else if truth x then run N fuel t G env else run N fuel e G env : Res)
    let (r, o') ← run N fuel k (G ++ rv) (env ++ ys)
    some (r, o ++ see rv ys ++ o')
  | .case i n bs k, G, env => do
    let c ← G[i]?
    let rs ← (List.finRange n).mapM fun j => infer N (bs j) G
    let rv ← branchVis c rs
    let x ← env[i]?
    let (ys, o) ← (if c = .sec then do
        let all ← (List.finRange n).mapM fun j => run N fuel (bs j) G env
        let y ← all[branch n x]?
        some (y.1, all.flatMap Prod.snd)
      else if h : branch n x < n then run N fuel (bs ⟨branch n x, h⟩) G env else none : Res)
    let (r, o') ← run N fuel k (G ++ rv) (env ++ ys)
    some (r, o ++ see rv ys ++ o')
  | .whl args c b k, G, e => do
    let v0 ← look G args
    let v ← loopVis (fun v => infer N b (G ++ v)) N v0
    let rc ← infer N c (G ++ v)
    let xs ← look e args
    let cond := fun st => do
      if rc[0]? = some .pub then do
        let (r, t) ← run N fuel c (G ++ v) (e ++ st)
        let x ← r[0]?
        some (truth x, t)
      else none
    let (ys, o) ← loopRun cond (fun st => run N fuel b (G ++ v) (e ++ st)) fuel xs
    let (r, o') ← run N fuel k (G ++ v) (e ++ ys)
    some (r, convert v0 v xs ++ o ++ see v ys ++ o')
  | .reduce len args inits b k, G, e => do
    let va ← look G args
    let vi ← look G inits
    let (u, rv) ← reduceVis (fun v => infer N b (G ++ v ++ v)) (List.zipWith (fun a i => common [a, i]) va vi)
    let xa ← look e args
    let xi ← look e inits
    let (ys, o) ← reduceRun (fun st => run N fuel b (G ++ u ++ u) (e ++ st)) xa (List.range len) xi
    let (r, o') ← run N fuel k (G ++ rv) (e ++ ys)
    some (r, convert va u xa ++ convert vi u xi ++ o ++ see rv ys ++ o')
  | .sort len args c k, G, e => do
    let vs ← look G args
    let rc ← infer N c (G ++ twice vs)
    let vc ← rc[0]?
    let rv := vs.map fun v => common [vc, v]
    let xs ← look e args
    let (tab, o) ← sortTable (fun st => run N fuel c (G ++ twice vs) (e ++ st)) xs
      ((List.range len).flatMap fun i => (List.range len).map fun j => (i, j))
    let ys := xs.map fun x => (sortPerm len tab).map fun i => x.getD i 0
    let (r, o') ← run N fuel k (G ++ rv) (e ++ ys)
    some (r, o ++ see rv ys ++ o')

end Spu.Model.Vis

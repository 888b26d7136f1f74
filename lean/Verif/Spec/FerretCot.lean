import Verif.Spec.Ferret
import Verif.Model.FerretCot

set_option autoImplicit false

/-!
# What a pool of correlated transfers must guarantee

Over any sequence of requests: no request fails, and every output of the extension is at any time in exactly one place — handed out once, used as a seed once, or still in the pool.
-/

namespace Spu.Spec
open Spu.Model.FerretCot

/-- sizes that the pool works with -/
structure LpnOk (P : Lpn) : Prop where
  lt : P.reserve < P.n
  twice : P.reserve + P.reserve ≤ P.n
  pre : P.reserve ≤ P.pre
  fits : P.pre ≤ P.n

variable {α : Type}

/-- a new adapter, with any contents of its buffer -/
def fresh (buf : ℕ → α) : St α := ⟨false, 0, 0, buf, 0, [], []⟩

/-- what the pool still holds: the reserved seeds and the rest -/
def held (P : Lpn) (s : St α) : List α :=
  if s.setup then (List.range P.reserve).map s.buf ++ (List.range (s.upper - s.used)).map fun i => s.buf (s.used + i) else []

/-- a sequence of requests, each with its size and the contents of its memory on entry; everything handed out, in order -/
def serve (P : Lpn) (X : Ext α) : List (ℕ × (ℕ → α)) → St α → Option (List α × St α)
  | [], s => some ([], s)
  | q :: qs, s => (rcot P X q.1 q.2 s).bind fun r => (serve P X qs r.2).map fun t => ((List.range q.1).map r.1 ++ t.1, t.2)

/-- the library with every output labelled by the call that made it and its position -/
def labelled (X : Ext α) : Ext (α × ℕ × ℕ) where
  first := fun i => (X.first i, 0, i)
  ext := fun c f i => (X.ext c (fun j => (f j).1) i, c + 1, i)

end Spu.Spec

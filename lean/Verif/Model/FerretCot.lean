import Verif.Model.Ferret

set_option autoImplicit false

/-!
# Model of `YaclFerretOTeAdapter` (`mpc/cheetah/ot/yacl/yacl_ote_adapter.{h,cc}`)

The pool of correlated transfers: a buffer `ot_buff_` of `lpn_param_.n` of them, whose first `reserve_num_` are kept as seeds of the next extension.
Sender and receiver run the same code on requests of the same size; an element of type `α` is what both hold, for instance the pair of the sender's and
the receiver's block.  The extension itself (`FerretOtExtSend/Recv_cheetah`, a library) is a parameter: call number, seeds, outputs.  Memory that is not
initialised is arbitrary: the contents of `data` on entry and of `ot_buff_` before the setup.  A copy outside of a buffer is `none`.
The statistics (`consumed_ot_num_` and the like) are left out; `seeds` and `made` record, for the specification, the seeds used and the outputs of the extension.
-/

namespace Spu.Model.FerretCot
open Spu.Model.Circ Spu.Model.Ferret

/-- `lpn_param_.n`, `reserve_num_`, `pre_lpn_param_.n` — yacl_ote_adapter.h:52-62, 111-120 -/
structure Lpn where
  n : ℕ
  reserve : ℕ
  pre : ℕ

variable {α : Type}

/-- the library: the output of the setup, and of the calls of the extension -/
structure Ext (α : Type) where
  first : ℕ → α
  ext : ℕ → (ℕ → α) → ℕ → α

structure St (α : Type) where
  setup : Bool
  used : ℕ
  upper : ℕ
  buf : ℕ → α
  calls : ℕ
  seeds : List α
  made : List α

/-- `len` consecutive elements -/
def seg (f : ℕ → α) (a len : ℕ) : List α := (List.range len).map fun i => f (a + i)

/-- `memcpy` of `len` elements between buffers of known sizes -/
def copy (dst : ℕ → α) (dstSize off : ℕ) (src : ℕ → α) (srcSize from' len : ℕ) : Option (ℕ → α) :=
  if off + len ≤ dstSize ∧ from' + len ≤ srcSize then some fun k => if off ≤ k ∧ k < off + len then src (from' + (k - off)) else dst k else none

variable (P : Lpn) (X : Ext α)

/-- `OneTimeSetup` — yacl_ote_adapter.cc:28-87 -/
def oneTimeSetup (s : St α) : St α :=
  if s.setup then s
  else { s with setup := true, used := P.reserve, upper := P.pre, buf := fun k => if k < P.pre then X.first k else s.buf k, made := s.made ++ seg X.first 0 P.pre }

/-- `Bootstrap` — yacl_ote_adapter.cc:200-227 -/
def bootstrap (s : St α) : St α :=
  { s with
    used := P.reserve, upper := P.n, calls := s.calls + 1, buf := fun k => if k < P.n then X.ext s.calls s.buf k else s.buf k
    seeds := s.seeds ++ seg s.buf 0 P.reserve, made := s.made ++ seg (X.ext s.calls s.buf) 0 P.n }

/-- the state of the loop in `rcot` that extends into the request itself; `span` are the seeds at hand -/
structure Inp (α : Type) where
  data : ℕ → α
  off : ℕ
  req : ℕ
  span : ℕ → α
  cnt : ℕ
  calls : ℕ
  seeds : List α
  made : List α

/-- one iteration, with `BootstrapInplace` — yacl_ote_adapter.cc:103-113, 229-255 -/
def inplaceStep (m : ℕ) (c : Inp α) : Option (Inp α) :=
  if c.off + P.n ≤ m then
    let data := fun k => if c.off ≤ k ∧ k < c.off + P.n then X.ext c.calls c.span (k - c.off) else c.data k
    let off := c.off + (P.n - P.reserve)
    if off + P.reserve ≤ m then
      some ⟨data, off, c.req - (P.n - P.reserve), fun j => data (off + j), c.cnt + 1, c.calls + 1, c.seeds ++ seg c.span 0 P.reserve,
        c.made ++ seg (X.ext c.calls c.span) 0 P.n⟩
    else none
  else none

/-- the loop, at most `fuel` iterations -/
def inplace (m : ℕ) : ℕ → Inp α → Option (Inp α)
  | 0, c => if P.n ≤ c.req then none else some c
  | fuel + 1, c => if P.n ≤ c.req then (inplaceStep P X m c).bind (inplace m fuel) else some c

/-- the seeds at hand go back to the front of `ot_buff_` — yacl_ote_adapter.cc:114-117 -/
def keepSeeds (buf : ℕ → α) (c : Inp α) : Option (ℕ → α) :=
  if c.cnt ≠ 0 then copy buf P.n 0 c.span P.reserve 0 P.reserve else some buf

/-- `rcot` of `m` elements — yacl_ote_adapter.cc:89-158; `d0` is what `data` holds on entry -/
def rcot (m : ℕ) (d0 : ℕ → α) (s : St α) : Option ((ℕ → α) × St α) := do
  let s := oneTimeSetup P X s
  let remain := s.upper - s.used
  let c ← inplace P X m m ⟨d0, 0, m, s.buf, 0, s.calls, s.seeds, s.made⟩
  let buf ← keepSeeds P s.buf c
  let otNum := min remain c.req
  let data ← copy c.data m c.off buf P.n s.used otNum
  let s := { s with buf := buf, calls := c.calls, seeds := c.seeds, made := c.made, used := s.used + otNum }
  let off := c.off + otNum
  if otNum < c.req then
    let req := c.req - otNum
    let s := bootstrap P X s
    if s.upper - P.reserve < req then
      let data ← copy data m off s.buf P.n P.reserve (s.upper - P.reserve)
      let off := off + (s.upper - P.reserve)
      let req := req - (s.upper - P.reserve)
      let s := bootstrap P X s
      let data ← copy data m off s.buf P.n s.used req
      return (data, { s with used := s.used + req })
    else
      let data ← copy data m off s.buf P.n s.used req
      return (data, { s with used := s.used + req })
  else return (data, s)

/-! ## the adapter as correlated transfers -/

/-- `one`: all bits but the lowest — yacl_ote_adapter.h:117-118 -/
def one : Block := BitVec.allOnes 128 - 1

/-- `Delta` and the seeds of the setup from a transfer extension — yacl_ote_adapter.cc:43-50, 64-72 -/
def setupDelta (δ : Block) : Block := δ ||| ~~~one
def setupSend (q : Block) : Block := q &&& one
def setupRecv (t : Block) (c : Bool) : Block := (t &&& one) ||| (if c then 1 else 0)

/-- a pool per direction, of pairs of blocks; `d0` as above -/
def poolRcot (X : Fin 2 → Ext (Block × Block)) (d0 : ℕ → Block × Block) (s : Fin 2) (m : ℕ) : M (Fin 2 → St (Block × Block)) (ℕ → Block × Block) :=
  fun st => (rcot P (X s) m d0 (st s)).map fun r => (r.1, fun p => if p = s then r.2 else st p)

/-- `send_rcot`/`recv_rcot`, `send_cot`/`recv_cot` — yacl_ote_adapter.h:80-87, yacl_ote_adapter.cc:160-198 -/
def poolCot (X : Fin 2 → Ext (Block × Block)) (delta : Fin 2 → Block) (d0 : ℕ → Block × Block) : Cot (Fin 2 → St (Block × Block)) where
  delta := delta
  rcot := fun s n => do
    let d ← poolRcot P X d0 s n
    return (fun i => (d i).1, fun i => (d i).2, fun i => (d i).2.setWidth 8 &&& 1)
  cot := fun s n ch => do
    let d ← poolRcot P X d0 s n
    let flip : ℕ → Bool := fun i => xor (decide (ch i ≠ 0)) ((d i).2.getLsbD 0)
    return (fun i => if flip i then (d i).1 ^^^ delta s else (d i).1, fun i => (d i).2)

end Spu.Model.FerretCot

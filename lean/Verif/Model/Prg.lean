import Mathlib.Data.Fin.Basic
import Mathlib.Algebra.BigOperators.Fin

set_option autoImplicit false

/-!
# Per-party pseudo-random state (`mpc/common/prg_state.{h,cc}`)

The cryptographic generator is abstract: `gen seed ctr req` is the output and the next counter
for request `req` (a byte count handed to `yacl::crypto::FillPRand`, or the length of a
permutation handed to `genRandomPerm`).  Only its determinism is used.
-/

namespace Spu.Model.Prg

/-- `PrgState::GenPrssCtrl` (`prg_state.h:77`). -/
inductive Ctrl | both | first | second
  deriving DecidableEq, Repr

/-- the fields of `PrgState` (`prg_state.h:37-52`). -/
structure St (Seed : Type) where
  pubSeed : Seed
  pubCtr : ℕ
  privSeed : Seed
  privCtr : ℕ
  selfSeed : Seed
  nextSeed : Seed
  r0Ctr : ℕ
  r1Ctr : ℕ

/-- `FillPRand` / `ReplayShuffle`: deterministic in (seed, counter, request). -/
structure Gen (Seed Req Out : Type) where
  gen : Seed → ℕ → Req → Out × ℕ

variable {Seed Req Out : Type}

/-- `fillPrssPair` (`prg_state.h:83-104`) and, with both draws, `genPrssPermPair`
(`prg_state.cc:101-106`): the words written to `r0` and `r1` (a skipped output stays
unspecified: `none`). -/
def fillPair (g : Gen Seed Req Out) (st : St Seed) (ctrl : Ctrl) (req : Req) :
    (Option Out × Option Out) × St Seed :=
  match ctrl with
  | .first =>
    let (o, c) := g.gen st.selfSeed st.r0Ctr req
    ((some o, none), { st with r0Ctr := c })
  | .second =>
    let (o, c) := g.gen st.nextSeed st.r1Ctr req
    ((none, some o), { st with r1Ctr := c })
  | .both =>
    let (o0, c0) := g.gen st.selfSeed st.r0Ctr req
    let (o1, c1) := g.gen st.nextSeed st.r1Ctr req
    ((some o0, some o1), { st with r0Ctr := c0, r1Ctr := c1 })

/-- `fillPubl` / `genPubl` (`prg_state.h:106-110`, `prg_state.cc:89-96`). -/
def fillPubl (g : Gen Seed Req Out) (st : St Seed) (req : Req) : Out × St Seed :=
  let (o, c) := g.gen st.pubSeed st.pubCtr req
  (o, { st with pubCtr := c })

/-- `fillPriv` / `genPriv` / `genPrivPerm` (`prg_state.h:112-116`, `prg_state.cc:80-87,98-100`). -/
def fillPriv (g : Gen Seed Req Out) (st : St Seed) (req : Req) : Out × St Seed :=
  let (o, c) := g.gen st.privSeed st.privCtr req
  (o, { st with privCtr := c })

/-- a sequence of `genPrssPair` calls by one party; collects what was written to `r0` and `r1` -/
def drawMany (g : Gen Seed Req Out) (st : St Seed) :
    List (Ctrl × Req) → (List Out × List Out) × St Seed
  | [] => (([], []), st)
  | (c, q) :: rest =>
    let ((o0, o1), st') := fillPair g st c q
    let ((l0, l1), st'') := drawMany g st' rest
    ((o0.toList ++ l0, o1.toList ++ l1), st'')

/-- `PrgState(lctx)` (`prg_state.cc:35-64`): the public seed is the sum of everybody's
contribution, party `i`'s own PRSS seed goes to party `i-1`, i.e. party `i` receives the seed
of party `i+1`. -/
def init {n : ℕ} [NeZero n] [AddCommMonoid Seed] (pk priv self : Fin n → Seed) :
    Fin n → St Seed := fun i =>
  { pubSeed := ∑ j, pk j, pubCtr := 0, privSeed := priv i, privCtr := 0,
    selfSeed := self i, nextSeed := self (i + 1), r0Ctr := 0, r1Ctr := 0 }

/-- `PrgState::fork` (`prg_state.cc:66-78`) at one party: the child's seeds are drawn from the
parent's public and PRSS streams; `seedReq` is the request for one 128-bit seed, `toSeed`
interprets the bytes. `priv` is a fresh private seed. -/
def fork (g : Gen Seed Req Out) (toSeed : Out → Seed) (seedReq : Req) (priv : Seed)
    (st : St Seed) : St Seed × St Seed :=
  let (op, st1) := fillPubl g st seedReq
  let (o0, c0) := g.gen st1.selfSeed st1.r0Ctr seedReq
  let (o1, c1) := g.gen st1.nextSeed st1.r1Ctr seedReq
  ({ pubSeed := toSeed op, pubCtr := 0, privSeed := priv, privCtr := 0,
     selfSeed := toSeed o0, nextSeed := toSeed o1, r0Ctr := 0, r1Ctr := 0 },
   { st1 with r0Ctr := c0, r1Ctr := c1 })

/-- One step of a protocol session.  A session owns a list of contexts (the root and all forks);
`ctx` selects the one used.
* `publ`: all parties draw public randomness;
* `priv i`: party `i` alone draws private randomness;
* `draws d`: party `i` runs the correlated draws `d i` (a kernel's script);
* `fork`: everybody forks context `ctx`. -/
inductive Cmd (Seed Req : Type) (n : ℕ)
  | publ (ctx : ℕ) (req : Req)
  | priv (ctx : ℕ) (i : Fin n) (req : Req)
  | draws (ctx : ℕ) (d : Fin n → List (Ctrl × Req))
  | fork (ctx : ℕ) (priv : Fin n → Seed)

/-- effect of one command on all contexts of all parties -/
def step (g : Gen Seed Req Out) (toSeed : Out → Seed) (seedReq : Req) {n : ℕ}
    (s : List (Fin n → St Seed)) : Cmd Seed Req n → List (Fin n → St Seed)
  | .publ k req =>
    match s[k]? with
    | none => s
    | some c => s.set k (fun i => (fillPubl g (c i) req).2)
  | .priv k j req =>
    match s[k]? with
    | none => s
    | some c => s.set k (fun i => if i = j then (fillPriv g (c i) req).2 else c i)
  | .draws k d =>
    match s[k]? with
    | none => s
    | some c => s.set k (fun i => (drawMany g (c i) (d i)).2)
  | .fork k pr =>
    match s[k]? with
    | none => s
    | some c =>
      s.set k (fun i => (fork g toSeed seedReq (pr i) (c i)).2) ++
        [fun i => (fork g toSeed seedReq (pr i) (c i)).1]

/-- a whole session from start-up -/
def session (g : Gen Seed Req Out) (toSeed : Out → Seed) (seedReq : Req) {n : ℕ} [NeZero n]
    [AddCommMonoid Seed] (pk priv self : Fin n → Seed) (cmds : List (Cmd Seed Req n)) :
    List (Fin n → St Seed) :=
  cmds.foldl (step g toSeed seedReq) [init pk priv self]

end Spu.Model.Prg

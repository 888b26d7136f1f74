import Mathlib.Data.List.Nodup
import Mathlib.Logic.Function.Basic

set_option autoImplicit false

/-!
# Program execution (`device/executor.cc`)

A block is a list of operations; SSA values are numbers.  A kernel is a function of the values it reads (the plaintext
semantics of a kernel; every task has its own forked context, `executor.cc:257`).  The parallel runner is a transition
system: a schedule says which thread moves next.  One move of a thread covers the code up to its next interaction with
other threads:

* the queue mutex is held around one `empty/front/pop` only, and the scope mutex around one lookup or insertion only, so
  each of these is one move;
* the event mutex is explicit (`lock`): it is held from the start of the predicate until the thread sleeps or goes on;
  unlocking is merged with the move before it, and `notify_all` with the lock around it;
* `ready()` is one move: values are never removed in parallel mode, so its two `hasValues` calls can be moved together.

A sleeping thread may also wake up without a notification (`spurious`).
-/

namespace Spu.Model.Exec

variable {V : Type}

/-- an operation of the block -/
structure Op (V : Type) where
  operands : List ℕ
  /-- values of the block that nested regions of the operation use (`executor.cc:190-204`) -/
  captured : List ℕ
  results : List ℕ
  /-- attribute `has_side_effect` (`executor.cc:259-269`; false for `DBG_PRINT`) -/
  side : Bool
  /-- `pphlo.free` (`pphlo_executor.cc:1140-1157`): no effect in parallel mode -/
  free : Bool
  kernel : List V → List V

def Op.reads (o : Op V) : List ℕ := o.operands ++ o.captured

/-- symbol table: `SymbolScope` -/
abbrev Sym (V : Type) := ℕ → Option V

/-- `addValue` for each result -/
def addAll (env : Sym V) (kv : List (ℕ × V)) : Sym V := kv.foldl (fun e p => Function.update e p.1 (some p.2)) env

/-- `runKernel` in `runBlock` (`executor.cc:140-142`); a lookup of a missing value throws. -/
def seqStep (env : Sym V) (o : Op V) : Option (Sym V) := do
  let xs ← o.reads.mapM env
  let env' := addAll env (o.results.zip (o.kernel xs))
  return if o.free then fun x => if x ∈ o.operands then none else env' x else env'

/-- `runBlock` (`executor.cc:136-156`): `outs` are the operands of the terminator -/
def runBlock (prog : List (Op V)) (params : Sym V) (outs : List ℕ) : Option (List V) := do
  let env ← prog.foldlM seqStep params
  outs.mapM env

/-- where a worker thread is, with the operation it works on -/
inductive Th (V : Type)
  | idle
  /-- about to lock the event mutex -/
  | want (o : ℕ)
  /-- event mutex held, about to evaluate `ready()` -/
  | chk (o : ℕ)
  /-- `ready()` was false; mutex still held -/
  | doze (o : ℕ)
  | sleep (o : ℕ)
  /-- about to run the kernel -/
  | start (o : ℕ)
  /-- results still to be added -/
  | write (o : ℕ) (rest : List (ℕ × V))
  /-- about to lock the event mutex and notify -/
  | fin (o : ℕ)
  /-- the kernel looked up a missing value: exception in a thread -/
  | crash (o : ℕ)
  | exit

structure St (V : Type) (T : ℕ) where
  queue : List ℕ
  th : Fin T → Th V
  sym : Sym V
  lock : Option (Fin T)
  /-- operations whose kernel was started, in order (for the statements only) -/
  ran : List ℕ

variable {T : ℕ}

/-- `BlockParallelRunner::run` before the threads start (`executor.cc:252-274`) -/
def init (prog : List (Op V)) (params : Sym V) (T : ℕ) : St V T :=
  ⟨List.range prog.length, fun _ => .idle, params, none, []⟩

/-- `extra_dependencies_` of operation `i`: results of earlier operations with side effects, and captured values -/
def extraDeps (prog : List (Op V)) (i : ℕ) (o : Op V) : List ℕ :=
  (prog.take i).flatMap (fun p => if p.side then p.results else []) ++ o.captured

/-- `OpExecTask::ready` (`executor.cc:207-210`) -/
def ready (prog : List (Op V)) (sym : Sym V) (i : ℕ) (o : Op V) : Bool :=
  o.operands.all (fun x => (sym x).isSome) && (extraDeps prog i o).all (fun x => (sym x).isSome)

/-- `notify_all` wakes every sleeper -/
def wake : Th V → Th V
  | .sleep o => .want o
  | t => t

/-- thread `t` moves to `x` -/
def St.goto (s : St V T) (t : Fin T) (x : Th V) : St V T := { s with th := Function.update s.th t x }

/-- The move of thread `t` (`OpExecTask::run`, `executor.cc:212-222`, and `run_task`, `executor.cc:299-309`); `none` if it
cannot move. -/
def move (prog : List (Op V)) (s : St V T) (t : Fin T) : Option (St V T) :=
  match s.th t with
  | .idle =>
    match s.queue with
    | [] => some (s.goto t .exit)
    | i :: q =>
      match prog[i]? with
      | none => none
      | some o => some { (s.goto t (if o.operands = [] then .start i else .want i)) with queue := q }
  | .want i =>
    if s.lock = none then some { (s.goto t (.chk i)) with lock := some t } else none
  | .chk i =>
    match prog[i]? with
    | none => none
    | some o =>
      if ready prog s.sym i o then some { (s.goto t (.start i)) with lock := none } else some (s.goto t (.doze i))
  | .doze i => some { (s.goto t (.sleep i)) with lock := none }
  | .sleep _ => none
  | .start i =>
    match prog[i]? with
    | none => none
    | some o =>
      match o.reads.mapM s.sym with
      | none => some (s.goto t (.crash i))
      | some xs => some { (s.goto t (.write i (o.results.zip (o.kernel xs)))) with ran := s.ran ++ [i] }
  | .write i [] => some (s.goto t (.fin i))
  | .write i ((r, v) :: rest) =>
    some { (s.goto t (.write i rest)) with sym := Function.update s.sym r (some v) }
  | .fin _ =>
    if s.lock = none then some { s with th := Function.update (fun u => wake (s.th u)) t .idle } else none
  | .crash _ => none
  | .exit => none

/-- a sleeping thread wakes up spuriously -/
def spurious (s : St V T) (t : Fin T) : Option (St V T) :=
  match s.th t with
  | .sleep i => some (s.goto t (.want i))
  | _ => none

/-- one element of a schedule: a move of a thread or a spurious wakeup -/
def act (prog : List (Op V)) (s : St V T) (a : Fin T × Bool) : Option (St V T) :=
  if a.2 then spurious s a.1 else move prog s a.1

/-- run a schedule -/
def runSched (prog : List (Op V)) (s : St V T) (sched : List (Fin T × Bool)) : Option (St V T) :=
  sched.foldlM (act prog) s

/-- all threads have been joined -/
def Joined (s : St V T) : Prop := ∀ t, s.th t = .exit

/-- `run` after the threads were joined (`executor.cc:276-297`) -/
def results (s : St V T) (outs : List ℕ) : Option (List V) := outs.mapM s.sym

end Spu.Model.Exec

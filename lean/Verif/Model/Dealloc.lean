import Mathlib.Data.List.OfFn
import Mathlib.Logic.Function.Basic

set_option autoImplicit false

/-!
# Insertion of deallocations and the sequential execution of blocks

(`dialect/pphlo/transforms/insert_deallocation.cc`, MLIR's `Liveness`, `device/executor.cc:30-135`,
`device/pphlo/pphlo_executor.cc:213-235`, `:1141-1160`)

Values are numbered by natural numbers.  A region has one block (`executor.cc:117`).  `none` is an exception.
-/

namespace Spu.Model.Dealloc

/-- blocks: operations of some kind with operands, results and regions (their arguments and their blocks), then the rest of
the block; `FreeOp`; the terminator -/
inductive Blk
  | ret (vs : List ℕ)
  | free (v : ℕ) (k : Blk)
  | op (kind : ℕ) (operands results : List ℕ) (n : ℕ) (params : Fin n → List ℕ) (regs : Fin n → Blk) (k : Blk)

/-! ## The pass -/

/-- `Value::getUsers`: does an operation of the block, or of a region in it, use the value? -/
def uses (x : ℕ) : Blk → Prop
  | .ret vs => x ∈ vs
  | .free v k => x = v ∨ uses x k
  | .op _ as _ _ _ regs k => x ∈ as ∨ (∃ i, uses x (regs i)) ∨ uses x k

instance decUses (x : ℕ) : (b : Blk) → Decidable (uses x b)
  | .ret vs => inferInstanceAs (Decidable (x ∈ vs))
  | .free v k => have := decUses x k; inferInstanceAs (Decidable (x = v ∨ uses x k))
  | .op _ as _ _ _ regs k =>
    have := decUses x k
    have := fun i => decUses x (regs i)
    inferInstanceAs (Decidable (x ∈ as ∨ (∃ i, uses x (regs i)) ∨ uses x k))

/-- the loop over the operands of an operation (`insert_deallocation.cc:48-67`).  `defs` are the results of the operations of
this block so far: other operands are block arguments or captured.  `acc` are the `FreeOp`s that are already behind the
operation; a new one comes before them (`setInsertionPointAfter`), and they count as users (`isDeadAfter`). -/
def freesAfter (defs : List ℕ) (k : Blk) : List ℕ → List ℕ → List ℕ
  | [], acc => acc
  | x :: as, acc => freesAfter defs k as (if x ∈ defs ∧ ¬ uses x k ∧ x ∉ acc then x :: acc else acc)

/-- `FreeOp`s before a block -/
def addFrees (fs : List ℕ) (k : Blk) : Blk := fs.foldr Blk.free k

/-- `transformBlock`, `transformRegion` (`insert_deallocation.cc:69-99`) -/
def addDealloc (defs : List ℕ) : Blk → Blk
  | .ret vs => .ret vs
  | .free v k => .free v (addDealloc defs k)
  | .op kind as rs n ps regs k =>
    .op kind as rs n ps (fun i => addDealloc [] (regs i)) (addFrees (freesAfter defs k as []) (addDealloc (defs ++ rs) k))

/-! ## Execution -/

variable {V S : Type}

/-- a region for a kernel: from arguments to results, with the state of the context -/
abbrev Run (V S : Type) := List V → S → Option (List V × S)

/-- the kernels: by the kind of the operation, from the operands and the regions -/
abbrev Kernels (V S : Type) := ℕ → List V → List (Run V S) → S → Option (List V × S)

/-- `SymbolScope::lookupValue`: the scope, then its parents -/
def find (own par : ℕ → Option V) (x : ℕ) : Option V := (own x).or (par x)

/-- `SymbolScope::addValue` for several values -/
def define (own : ℕ → Option V) : List ℕ → List V → Option (ℕ → Option V)
  | [], [] => some own
  | x :: xs, v :: vs => define (Function.update own x (some v)) xs vs
  | _, _ => none

/-- `runBlock` (`executor.cc:126-150`).  `own` is the scope of the block, `par` its parents.  A `FreeOp` removes a value of the
scope, unless execution is parallel; here it fails if there is no such value.  Kernels run regions in a new scope and
sequentially (`runRegion` without options). -/
def run (K : Kernels V S) (parallel : Bool) : Blk → (ℕ → Option V) → (ℕ → Option V) → S → Option (List V × S)
  | .ret vs, own, par, s => do
    let xs ← vs.mapM (find own par)
    some (xs, s)
  | .free v k, own, par, s =>
    if parallel then run K parallel k own par s
    else if (own v).isSome then run K parallel k (Function.update own v none) par s else none
  | .op kind as rs n ps regs k, own, par, s => do
    let xs ← as.mapM (find own par)
    let (ys, s') ← K kind xs (List.ofFn fun i => fun args t => do
      let own' ← define (fun _ => none) (ps i) args
      run K false (regs i) own' (find own par) t) s
    let own' ← define own rs ys
    run K parallel k own' par s'

end Spu.Model.Dealloc

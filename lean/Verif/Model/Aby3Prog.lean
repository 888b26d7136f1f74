import Verif.Model.Aby3Conv

set_option autoImplicit false

/-!
# aby3: sequences of kernel calls

A program is a list of kernel calls on numbered registers; a register holds an arithmetic or a boolean
share.  Every call appends one register.  A call on a register of the wrong kind fails (the dispatch of
`mpc/api.cc` by type never makes one).
-/

namespace Spu.Model.Aby3
open Spu.Model.Circ
open Spu.Model.Semi2kConv (BOp)

/-- one kernel call; operands are register numbers -/
inductive Op3 (w : ℕ)
  | p2a (p : BitVec w)
  | randA
  | neg (i : ℕ)
  | addAP (i : ℕ) (p : BitVec w)
  | addAA (i j : ℕ)
  | mulAP (i : ℕ) (p : BitVec w)
  | mulAA (i j : ℕ)
  | mulA1B (i j : ℕ)
  | lshiftA (i k : ℕ)
  | a2b (i : ℕ)
  | msb (i : ℕ)
  | b2a (i : ℕ)
  | eqAA (i j : ℕ)
  | eqAP (i : ℕ) (p : BitVec w)
  | bool (op : BOp w)

/-- a register -/
inductive Reg3 (w : ℕ)
  | arith (x : Sh (BitVec w))
  | bool (a : BShr)

section
variable {σ : Type} {w : ℕ}

/-- arithmetic share in register `i` -/
def getA (regs : List (Reg3 w)) (i : ℕ) : Option (Sh (BitVec w)) :=
  match regs[i]? with
  | some (.arith x) => some x
  | _ => none

/-- boolean share in register `i` -/
def getB (regs : List (Reg3 w)) (i : ℕ) : Option BShr :=
  match regs[i]? with
  | some (.bool a) => some a
  | _ => none

/-- an array of one element -/
def single (x : Sh (BitVec w)) : Sh (Arr w) := mapSh (fun l _ => l) x

/-- result of a boolean kernel -/
def bcall3 (E : Env σ) (regs : List (Reg3 w)) : BOp w → M σ BShr
  | .p2b p np => p2bK3 p np
  | .rand => randB w E
  | .cast i j => do
    let a ← (getB regs i : Option BShr)
    let b ← (getB regs j : Option BShr)
    castBB a b
  | .xorBB i j => do
    let a ← (getB regs i : Option BShr)
    let b ← (getB regs j : Option BShr)
    xorBB3 a b
  | .xorBP i p np => do
    let a ← (getB regs i : Option BShr)
    xorBP3 a p np
  | .andBB i j => do
    let a ← (getB regs i : Option BShr)
    let b ← (getB regs j : Option BShr)
    andBB3 E a b
  | .andBP i p np => do
    let a ← (getB regs i : Option BShr)
    andBP3 a p np
  | .lshift i k => do
    let a ← (getB regs i : Option BShr)
    lshiftB3 w a k
  | .rshift i k => do
    let a ← (getB regs i : Option BShr)
    rshiftB3 a k
  | .lshiftv i m k => do
    let a ← (getB regs i : Option BShr)
    lshiftV3 w a m k
  | .rshiftv i m k => do
    let a ← (getB regs i : Option BShr)
    rshiftV3 a m k
  | .arshift i k => do
    let a ← (getB regs i : Option BShr)
    arshiftB3 w a k
  | .bitrev i s e => do
    let a ← (getB regs i : Option BShr)
    bitrevB3 a s e
  | .intl i s => do
    let a ← (getB regs i : Option BShr)
    bitintlB3 a s
  | .deintl i s => do
    let a ← (getB regs i : Option BShr)
    bitdeintlB3 a s

/-- arithmetic result -/
def retA (m : M σ (Sh (BitVec w))) : M σ (Reg3 w) := do return .arith (← m)
/-- boolean result -/
def retB (m : M σ BShr) : M σ (Reg3 w) := do return .bool (← m)

/-- result of one call -/
def call3 (E : Env σ) (regs : List (Reg3 w)) : Op3 w → M σ (Reg3 w)
  | .p2a p => retA (pure (Aby3.p2a p))
  | .randA => retA (Aby3.randA E)
  | .neg i => retA (do
    let x ← (getA regs i : Option (Sh (BitVec w)))
    return negateA x)
  | .addAP i p => retA (do
    let x ← (getA regs i : Option (Sh (BitVec w)))
    return Aby3.addAP x p)
  | .addAA i j => retA (do
    let x ← (getA regs i : Option (Sh (BitVec w)))
    let y ← (getA regs j : Option (Sh (BitVec w)))
    return Aby3.addAA x y)
  | .mulAP i p => retA (do
    let x ← (getA regs i : Option (Sh (BitVec w)))
    return Aby3.mulAP x p)
  | .mulAA i j => retA (do
    let x ← (getA regs i : Option (Sh (BitVec w)))
    let y ← (getA regs j : Option (Sh (BitVec w)))
    mulAAK E x y)
  | .mulA1B i j => retA (do
    let x ← (getA regs i : Option (Sh (BitVec w)))
    let b ← (getB regs j : Option BShr)
    Aby3.mulA1B E x b)
  | .lshiftA i k => retA (do
    let x ← (getA regs i : Option (Sh (BitVec w)))
    let z ← (Aby3.lshiftA x k : Option (Sh (BitVec w)))
    return z)
  | .a2b i => retB (do
    let x ← (getA regs i : Option (Sh (BitVec w)))
    a2b3 E x)
  | .msb i => retB (do
    let x ← (getA regs i : Option (Sh (BitVec w)))
    msbA2B3 E x)
  | .b2a i => retA (do
    let b ← (getB regs i : Option BShr)
    b2aSelect E b)
  | .eqAA i j => retB (do
    let x ← (getA regs i : Option (Sh (BitVec w)))
    let y ← (getA regs j : Option (Sh (BitVec w)))
    let z ← equalAA3 E 1 (single x) (single y)
    return ⟨z.v, z.nb, mapSh (fun l => l 0) z.sh⟩)
  | .eqAP i p => retB (do
    let x ← (getA regs i : Option (Sh (BitVec w)))
    let z ← equalAP3 E 1 (single x) (fun _ => p)
    return ⟨z.v, z.nb, mapSh (fun l => l 0) z.sh⟩)
  | .bool op => retB (bcall3 E regs op)

/-- run one call and append its result to the registers -/
def exec3 (E : Env σ) (regs : List (Reg3 w)) (op : Op3 w) : M σ (List (Reg3 w)) := do
  let r ← call3 E regs op
  return regs ++ [r]

/-- run a program -/
def run3 (E : Env σ) (ops : List (Op3 w)) : M σ (List (Reg3 w)) := ops.foldlM (exec3 E) []

end

end Spu.Model.Aby3

import Verif.Model.Semi2k
import Verif.Model.Gates
import Mathlib.Data.Nat.Size

set_option autoImplicit false

/-!
# semi2k boolean shares with declared bit counts, and share conversions

(`mpc/semi2k/boolean.cc`, `mpc/semi2k/conversion.cc`)

A boolean share of one element is one `w`-bit word per party and the declared bit count
(`BShrTy::nbits`).  The sources of randomness the kernels use are an argument (`Env`); the state `σ`
is theirs.  `none` is an exception or undefined behaviour.
-/

namespace Spu.Model.Semi2kConv
open Spu.Model.Circ Spu.Model.Bits Spu.Model.Semi2k

/-- a boolean share (`semi2k/type.h:31-55`) -/
structure BShr (n w : ℕ) where
  sh : Fin n → BitVec w
  nb : ℕ

/-- what the kernels draw from `PrgState` and `Beaver`, for one element -/
structure Env (σ : Type) (n w : ℕ) where
  /-- `genPrssPair(.., Both)` -/
  prss : M σ ((Fin n → BitVec w) × (Fin n → BitVec w))
  /-- `genPriv` -/
  priv : M σ (Fin n → BitVec w)
  /-- `fillPubl` of one word, as every party sees it -/
  publ : M σ (Fin n → ℕ)
  /-- `Beaver::And` for one word of `v` bits -/
  andT : (v : ℕ) → M σ ((Fin n → BitVec v) × (Fin n → BitVec v) × (Fin n → BitVec v))
  /-- `Beaver::RandBit` for `k` elements -/
  randBits : (k : ℕ) → M σ (ℕ → Fin n → BitVec w)
  /-- `Beaver::Eqz` -/
  eqz : M σ ((Fin n → BitVec w) × (Fin n → BitVec w))

/-- `BitWidth` (`core/bit_utils.h:34-45`) -/
def wordWidth {w : ℕ} (p : BitVec w) : ℕ := Nat.size p.toNat

/-- body of `ring_bitrev_impl` (`utils/ring_ops.cc:143-157`) and of `bitrev_fn` in the aby3 kernel
(`aby3/boolean.cc:497-508`) -/
def bitrevWord {w : ℕ} (x : BitVec w) (start stop : ℕ) : BitVec w :=
  let tmp := ((List.range stop).filter (fun idx => decide (start ≤ idx))).foldl (fun (t : BitVec w) idx =>
    if x &&& ((1 : BitVec w) <<< idx) ≠ 0 then t ||| ((1 : BitVec w) <<< (stop - 1 - idx + start)) else t) 0
  let mask := ((1 : BitVec w) <<< stop) - ((1 : BitVec w) <<< start)
  (x &&& ~~~ mask) ||| tmp

/-- `ring_bitrev_impl` (`utils/ring_ops.cc:138-165`); `(U)1 << end` is undefined for `end = w`. -/
def bitrev {w : ℕ} (x : BitVec w) (start stop : ℕ) : Option (BitVec w) :=
  if stop < w ∧ start < w then some (bitrevWord x start stop) else none

section
variable {σ : Type} {n w : ℕ} [NeZero n] (E : Env σ n w)

/-- a per-party map that may fail -/
def perParty {n w : ℕ} (f : BitVec w → Option (BitVec w)) (x : Fin n → BitVec w) : Option (Fin n → BitVec w) :=
  if ∀ i, (f (x i)).isSome then some (fun i => (f (x i)).getD 0) else none

/-- `P2B` (`boolean.cc:113-128`); `np` is `maxBitWidth` of the public array. -/
def p2bK (p : BitVec w) (np : ℕ) : M σ (BShr n w) := do
  let (r0, r1) ← E.prss
  return ⟨p2b r0 r1 p, np⟩

/-- `RandB` (`boolean.cc:90-104`) -/
def randBK : M σ (BShr n w) := do
  let r ← E.priv
  return ⟨fun i => r i &&& 1, 1⟩

/-- `CommonTypeB` and `CastTypeB` (`boolean.cc:69-88`): `a` in the common type of `a` and `b` -/
def castK (a b : BShr n w) : M σ (BShr n w) := pure ⟨a.sh, max a.nb b.nb⟩

/-- `AndBP` (`boolean.cc:130-147`) -/
def andBPK (a : BShr n w) (p : BitVec w) (np : ℕ) : M σ (BShr n w) := pure ⟨andBP a.sh p, min a.nb np⟩

/-- `AndBB` (`boolean.cc:149-208`) -/
def andBBK (a b : BShr n w) : M σ (BShr n w) := do
  let v ← (backBits (min a.nb b.nb) : Option ℕ)
  let (x, y, z) ← E.andT v
  return ⟨andBB a.sh b.sh x y z, min a.nb b.nb⟩

/-- `XorBP` (`boolean.cc:210-226`) -/
def xorBPK (a : BShr n w) (p : BitVec w) (np : ℕ) : M σ (BShr n w) := pure ⟨xorBP a.sh p, max a.nb np⟩

/-- `XorBB` (`boolean.cc:228-237`) -/
def xorBBK (a b : BShr n w) : M σ (BShr n w) := pure ⟨xorBB a.sh b.sh, max a.nb b.nb⟩

/-- `LShiftB` (`boolean.cc:239-248`) on an element shifted by `k` of an array in which `kmax` is the largest
amount; a shift by `w` or more is undefined. -/
def lshiftBV (a : BShr n w) (kmax k : ℕ) : M σ (BShr n w) := do
  enforce (decide (k < w))
  return ⟨lshiftB a.sh k, min (a.nb + kmax) w⟩

/-- `LShiftB` with one amount -/
def lshiftBK (a : BShr n w) (k : ℕ) : M σ (BShr n w) := lshiftBV a k k

/-- `RShiftB` (`boolean.cc:250-260`) on an element shifted by `k`; `kmin` is the smallest amount. -/
def rshiftBV (a : BShr n w) (kmin k : ℕ) : M σ (BShr n w) := do
  enforce (decide (a.nb ≤ w))
  enforce (decide (k < w))
  return ⟨rshiftB a.sh k, a.nb - min a.nb kmin⟩

/-- `RShiftB` with one amount -/
def rshiftBK (a : BShr n w) (k : ℕ) : M σ (BShr n w) := rshiftBV a k k

/-- `ARShiftB` (`boolean.cc:262-269`) -/
def arshiftBK (a : BShr n w) (k : ℕ) : M σ (BShr n w) := do
  enforce (decide (k < w))
  return ⟨arshiftB a.sh k, w⟩

/-- `BitrevB` (`boolean.cc:271-281`) -/
def bitrevBK (a : BShr n w) (start stop : ℕ) : M σ (BShr n w) := do
  enforce (decide (start ≤ stop))
  enforce (decide (stop ≤ w))
  let r ← (perParty (fun x => bitrev x start stop) a.sh : Option (Fin n → BitVec w))
  return ⟨r, max a.nb stop⟩

/-- `BitIntlB` (`boolean.cc:283-302`) -/
def bitintlBK (a : BShr n w) (stride : ℕ) : M σ (BShr n w) := do
  enforce (singleBit a.nb)
  let r ← (perParty (fun x => bitIntl x stride a.nb) a.sh : Option (Fin n → BitVec w))
  return ⟨r, a.nb⟩

/-- `BitDeintlB` (`boolean.cc:304-323`) -/
def bitdeintlBK (a : BShr n w) (stride : ℕ) : M σ (BShr n w) := do
  enforce (singleBit a.nb)
  let r ← (perParty (fun x => bitDeintl x stride a.nb) a.sh : Option (Fin n → BitVec w))
  return ⟨r, a.nb⟩

/-- the semi2k kernels behind the boolean-share API -/
def gates : Gates σ (BShr n w) w where
  nb := BShr.nb
  xorBB := xorBBK
  andBB := andBBK E
  andBP a p := andBPK a p (wordWidth p)
  lshift := lshiftBK
  rshift := rshiftBK
  bitdeintl := bitdeintlBK
  bitintl := bitintlBK

/-- element-wise application to two lists (`vmap`) -/
def vmap2 {α : Type} (op : α → α → M σ α) : List α → List α → M σ (List α)
  | a :: as, b :: bs => do
    let c ← op a b
    let cs ← vmap2 op as bs
    return c :: cs
  | _, _ => pure []

/-- `vreduce` (`core/vectorize.h:184-211`); `len` is the length of the list.  `same` is the type
check of `pack`. -/
def vreduceM {α : Type} (same : List α → Bool) (op : α → α → M σ α) (len : ℕ) (xs : List α) : M σ α :=
  if _h : 1 < len then do
    let half := len / 2
    let lhs := xs.take half
    let rhs := (xs.drop half).take half
    enforce (same lhs && same rhs)
    let next ← vmap2 op lhs rhs
    let next := if len % 2 = 1 then next ++ xs.drop (2 * half) else next
    vreduceM same op (half + len % 2) next
  else
    match xs with
    | x :: _ => pure x
    | [] => failure
termination_by len
decreasing_by omega

/-- all declared bit counts equal -/
def sameNb (l : List (BShr n w)) : Bool := decide (∀ a ∈ l, ∀ b ∈ l, a.nb = b.nb)

/-- boolean share of party `idx`'s additive share (`conversion.cc:71-80`, `:284-292`) -/
def maskedShare (x : Fin n → BitVec w) (idx : Fin n) : M σ (BShr n w) := do
  let (r0, r1) ← E.prss
  return ⟨fun i => if idx = i then (r0 i ^^^ r1 i) ^^^ x i else r0 i ^^^ r1 i, w⟩

/-- `A2B` (`conversion.cc:65-88`) -/
def a2b (x : Fin n → BitVec w) : M σ (BShr n w) := do
  let bs ← (List.finRange n).mapM (maskedShare E x)
  let r ← vreduceM sameNb (addBB (gates E)) bs.length bs
  return ⟨r.sh, w⟩

/-- `B2A` (`conversion.cc:90-111`; not registered, `semi2k/protocol.cc`) -/
def b2a (x : BShr n w) : M σ (Fin n → BitVec w) := do
  let r ← E.priv
  let rb ← a2b E r
  let s ← addBB (gates E) x rb
  return fun i => if i = 0 then -(r i) + allReduce (· ^^^ ·) s.sh i else -(r i)

/-- party `i`'s mask word built from the low bits of the random bit shares (`conversion.cc:150-156`) -/
def bitMask {v : ℕ} (r : ℕ → Fin n → BitVec w) (nb : ℕ) (i : Fin n) : BitVec v :=
  (List.range nb).foldl (fun m bit => m + (((r bit i).setWidth v &&& 1) <<< bit)) 0

/-- the opened word `x ^ r` of `B2A_Randbit`, `B2A_Disassemble` as party `i` sees it -/
def openXor (x : BShr n w) (v : ℕ) (r : ℕ → Fin n → BitVec w) (i : Fin n) : BitVec v :=
  allReduce (· ^^^ ·) (fun j => (x.sh j).setWidth v ^^^ bitMask r x.nb j) i

/-- bit `bit` of the opened word as a ring element (`conversion.cc:166`) -/
def bitAt {v : ℕ} (c : BitVec v) (bit : ℕ) : BitVec w := (c >>> bit).setWidth w &&& 1

/-- `B2A_Randbit` (`conversion.cc:116-179`) -/
def b2aRandbit (x : BShr n w) : M σ (Fin n → BitVec w) := do
  enforce (decide (x.nb ≤ w))
  if x.nb = 0 then return fun _ => 0
  else do
    let v ← (backBits x.nb : Option ℕ)
    let r ← E.randBits x.nb
    return fun i => (List.range x.nb).foldl (fun (acc : BitVec w) bit =>
      let c : BitVec w := bitAt (openXor x v r i) bit
      if i = 0 then acc + ((c + (1 - c * 2) * r bit i) <<< bit)
      else acc + (((1 - c * 2) * r bit i) <<< bit)) 0

/-- `B2A_Disassemble` (`conversion.cc:211-269`): one additive share per declared bit -/
def b2aDisassemble (x : BShr n w) : M σ (List (Fin n → BitVec w)) := do
  enforce (decide (0 < x.nb) && decide (x.nb ≤ w))
  let v ← (backBits x.nb : Option ℕ)
  let r ← E.randBits x.nb
  return (List.range x.nb).map (fun bit i =>
    let c : BitVec w := bitAt (openXor x v r i) bit
    if i = 0 then c + (1 - c * 2) * r bit i else (1 - c * 2) * r bit i)

/-- the loop of `eqz` (`conversion.cc:361-365`); `ring_rshift` keeps the element type.  With a bit
count that is not a power of two it would reach 0 and loop forever (`none`). -/
def eqzLoop (r : BShr n w) (cur : ℕ) : M σ (BShr n w) :=
  if _h1 : cur = 1 then pure r
  else if _h0 : cur = 0 then failure
  else do
    let r' ← andBBK E r ⟨rshiftB r.sh (cur / 2), r.nb⟩
    eqzLoop r' (cur / 2)
termination_by cur
decreasing_by omega

/-- `eqz` (`conversion.cc:316-374`) -/
def eqz (x : Fin n → BitVec w) : M σ (BShr n w) := do
  let pv ← E.publ
  let (ra, rb) ← E.eqz
  let r : Fin n → BitVec w := fun i =>
    if i.val = pv i % n then ~~~ (rb i ^^^ allReduce (· + ·) (fun j => ra j + x j) i) else rb i
  let out ← eqzLoop E ⟨r, w⟩ w
  return ⟨fun i => out.sh i &&& 1, w⟩

/-- `EqualAA` (`conversion.cc:376-388`) -/
def equalAA (x y : Fin n → BitVec w) : M σ (BShr n w) := eqz E (fun i => x i - y i)

/-- `EqualAP` (`conversion.cc:390-408`) -/
def equalAP (x : Fin n → BitVec w) (p : BitVec w) : M σ (BShr n w) :=
  eqz E (fun i => if i = 0 then x i - p else x i)

/-- `MsbA2B` (`conversion.cc:271-314`), on a non-empty array -/
def msbA2B (x : Fin n → BitVec w) : M σ (BShr n w) := do
  enforce (decide (n = 2))
  let bs ← (List.finRange n).mapM (maskedShare E x)
  match bs with
  | [a, b] => do
    let carry ← carryA2B (gates E) a b (w - 1)
    let s ← xorBBK a b
    let s ← rshiftBK s (w - 1)
    xorBBK s carry
  | _ => failure

/-! ### boolean programs -/

/-- one boolean kernel call; operands are register numbers; `np` is the `maxBitWidth` the kernel
computes for its public operand array (which covers every element, `core/ndarray_ref.h:456-480`) -/
inductive BOp (w : ℕ)
  | p2b (p : BitVec w) (np : ℕ)
  | rand
  | cast (i j : ℕ)
  | xorBB (i j : ℕ)
  | xorBP (i : ℕ) (p : BitVec w) (np : ℕ)
  | andBB (i j : ℕ)
  | andBP (i : ℕ) (p : BitVec w) (np : ℕ)
  | lshift (i k : ℕ)
  | rshift (i k : ℕ)
  | lshiftv (i kmax k : ℕ)
  | rshiftv (i kmin k : ℕ)
  | arshift (i k : ℕ)
  | bitrev (i start stop : ℕ)
  | intl (i stride : ℕ)
  | deintl (i stride : ℕ)

/-- the result of one call -/
def BOp.call (regs : List (BShr n w)) : BOp w → M σ (BShr n w)
  | .p2b p np => p2bK E p np
  | .rand => randBK E
  | .cast i j => do
    let a ← (regs[i]? : Option (BShr n w))
    let b ← (regs[j]? : Option (BShr n w))
    castK a b
  | .xorBB i j => do
    let a ← (regs[i]? : Option (BShr n w))
    let b ← (regs[j]? : Option (BShr n w))
    xorBBK a b
  | .xorBP i p np => do
    let a ← (regs[i]? : Option (BShr n w))
    xorBPK a p np
  | .andBB i j => do
    let a ← (regs[i]? : Option (BShr n w))
    let b ← (regs[j]? : Option (BShr n w))
    andBBK E a b
  | .andBP i p np => do
    let a ← (regs[i]? : Option (BShr n w))
    andBPK a p np
  | .lshift i k => do
    let a ← (regs[i]? : Option (BShr n w))
    lshiftBK a k
  | .rshift i k => do
    let a ← (regs[i]? : Option (BShr n w))
    rshiftBK a k
  | .lshiftv i m k => do
    let a ← (regs[i]? : Option (BShr n w))
    lshiftBV a m k
  | .rshiftv i m k => do
    let a ← (regs[i]? : Option (BShr n w))
    rshiftBV a m k
  | .arshift i k => do
    let a ← (regs[i]? : Option (BShr n w))
    arshiftBK a k
  | .bitrev i s e => do
    let a ← (regs[i]? : Option (BShr n w))
    bitrevBK a s e
  | .intl i s => do
    let a ← (regs[i]? : Option (BShr n w))
    bitintlBK a s
  | .deintl i s => do
    let a ← (regs[i]? : Option (BShr n w))
    bitdeintlBK a s

/-- run one call and append its result to the registers -/
def BOp.exec (regs : List (BShr n w)) (op : BOp w) : M σ (List (BShr n w)) := do
  let r ← BOp.call E regs op
  return regs ++ [r]

/-- run a program -/
def runB (ops : List (BOp w)) : M σ (List (BShr n w)) := ops.foldlM (BOp.exec E) []

end

end Spu.Model.Semi2kConv

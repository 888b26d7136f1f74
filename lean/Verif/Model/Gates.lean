import Verif.Model.Bits

set_option autoImplicit false

/-!
# Boolean circuits over abstract gates

`mpc/ab_api.cc` writes its adders against the boolean-share API (`xor_bb`, `and_bb`, `lshift_b`, ...);
`mpc/utils/circuits.h` writes the same circuits against a table of functions (`CircuitBasicBlock<T>`).
Both are modelled over a record of gates.  `T` is a boolean share of one element (all parties), with
its declared bit count; `σ` is everything a gate may change (randomness, communication);
`none` is an exception.  All gates are element-wise, so one element suffices; `vmap` of two gates is
modelled as a type check and two gate calls in order (that packing is transparent is property C09).
-/

namespace Spu.Model.Circ
open Spu.Model.Bits

/-- a kernel: may change the state, may throw -/
abbrev M (σ α : Type) := StateT σ Option α

/-- the boolean-share API of `mpc/ab_api.cc` used by the circuits -/
structure Gates (σ T : Type) (w : ℕ) where
  /-- `numBits` (`ab_api.cc:220-222`) -/
  nb : T → ℕ
  xorBB : T → T → M σ T
  andBB : T → T → M σ T
  /-- with a public operand that is the same for all elements -/
  andBP : T → BitVec w → M σ T
  lshift : T → ℕ → M σ T
  rshift : T → ℕ → M σ T
  bitdeintl : T → ℕ → M σ T
  bitintl : T → ℕ → M σ T

/-- `SPU_ENFORCE` -/
def enforce {σ : Type} (b : Bool) : M σ Unit := if b then pure () else failure

/-- `absl::has_single_bit` -/
def singleBit (n : ℕ) : Bool := decide (n ≠ 0) && decide (n &&& (n - 1) = 0)

section
variable {σ T : Type} {w : ℕ} (C : Gates σ T w)

/-- `vmap({a, b}, {c, d}, and_bb)` (`core/vectorize.h:135-157`): packing throws unless the packed
arrays have equal element types (`core/value.h:115-121`), i.e. equal declared bit counts.  The
packed AND itself is modelled as two ANDs (C09). -/
def vand2 (a b c d : T) : M σ (T × T) := do
  enforce (decide (C.nb a = C.nb b))
  enforce (decide (C.nb c = C.nb d))
  let r0 ← C.andBB a c
  let r1 ← C.andBB b d
  return (r0, r1)

/-- one round of `ppa_kogge_stone` (`ab_api.cc:320-333`) -/
def koggeRound (PG : T × T) (idx : ℕ) : M σ (T × T) := do
  let (P, G) := PG
  let offset := 2 ^ idx
  let G1 ← C.lshift G offset
  let P1 ← C.lshift P offset
  let (r0, r1) ← vand2 C P P P1 G1
  let G' ← C.xorBB G r1
  return (r0, G')

/-- `ppa_kogge_stone` (`ab_api.cc:314-337`) -/
def ppaKoggeStone (lhs rhs : T) (nbits : ℕ) : M σ T := do
  let P ← C.xorBB lhs rhs
  let G ← C.andBB lhs rhs
  let PG ← (List.range (log2Ceil nbits)).foldlM (koggeRound C) (P, G)
  let c ← C.lshift PG.2 1
  let s ← C.xorBB lhs rhs
  C.xorBB s c

/-- `bit_scatter` (`ab_api.cc:339-351`): (high half, low half) -/
def bitScatter (inp : T) (stride : ℕ) : M σ (T × T) := do
  let nbits := C.nb inp
  enforce (singleBit nbits)
  let out ← C.bitdeintl inp stride
  let hi ← C.rshift out (nbits / 2)
  let mask : BitVec 128 := (1 : BitVec 128) <<< (nbits / 2) - 1
  let lo ← C.andBP out (mask.setWidth w)
  return (hi, lo)

/-- `bit_gather` (`ab_api.cc:353-362`) -/
def bitGather (hi lo : T) (stride : ℕ) : M σ T := do
  let nbits := C.nb hi
  enforce (singleBit nbits)
  enforce (decide (nbits = C.nb lo))
  let h ← C.lshift hi nbits
  let out ← C.xorBB h lo
  C.bitintl out stride

/-- `kSelMask` of `ppa_sklansky` (`ab_api.cc:369-377`) -/
def ppaSelMask : List (BitVec 128) :=
  [0xFFFFFFFFFFFFFFFFFFFFFFFFFFFFFFFF#128,
   0xAAAAAAAAAAAAAAAAAAAAAAAAAAAAAAAA#128,
   0x88888888888888888888888888888888#128,
   0x80808080808080808080808080808080#128,
   0x80008000800080008000800080008000#128,
   0x80000000800000008000000080000000#128,
   0x80000000000000008000000000000000#128]

/-- spreading loop of `ppa_sklansky` (`ab_api.cc:397-400`) -/
def ppaSpread (Gs Ps : T) (idx : ℕ) : M σ (T × T) :=
  (List.range idx).foldlM (fun (gp : T × T) j => do
    let g1 ← C.rshift gp.1 (2 ^ j)
    let g ← C.xorBB gp.1 g1
    let p1 ← C.rshift gp.2 (2 ^ j)
    let p ← C.xorBB gp.2 p1
    return (g, p)) (Gs, Ps)

/-- one round of `ppa_sklansky` (`ab_api.cc:386-416`) -/
def sklanskyRound (PG : T × T) (idx : ℕ) : M σ (T × T) := do
  let (Ph, Pl) ← bitScatter C PG.1 idx
  let (Gh, Gl) ← bitScatter C PG.2 idx
  let sm ← (ppaSelMask[idx]? : Option (BitVec 128))
  let Gs ← C.andBP Gl (sm.setWidth w)
  let Ps ← C.andBP Pl (sm.setWidth w)
  let (Gs, Ps) ← ppaSpread C Gs Ps idx
  let (r0, r1) ← vand2 C Ph Ph Ps Gs
  let Gh' ← C.xorBB Gh r1
  let P ← bitGather C r0 Pl idx
  let G ← bitGather C Gh' Gl idx
  return (P, G)

/-- `ppa_sklansky` (`ab_api.cc:365-421`) -/
def ppaSklansky (lhs rhs : T) (nbits : ℕ) : M σ T := do
  let P ← C.xorBB lhs rhs
  let G ← C.andBB lhs rhs
  enforce (decide (C.nb lhs = C.nb rhs))
  let PG ← (List.range (log2Ceil nbits)).foldlM (sklanskyRound C) (P, G)
  let c ← C.lshift PG.2 1
  let s ← C.xorBB lhs rhs
  C.xorBB s c

/-- `add_bb` (`ab_api.cc:425-448`); only spdz2k registers its own `add_bb` kernel; elsewhere this
default runs, with the circuit type constant `KoggeStone`. -/
def addBB (x y : T) : M σ T := do
  let nbits := C.nb x
  enforce (decide (nbits = C.nb y))
  ppaKoggeStone C x y nbits

/-- loop of `carry_a2b` (`ab_api.cc:460-479`) -/
def carryLoop (P G : T) (k : ℕ) : M σ T :=
  if _h : k > 1 then do
    let (P, G) ← if k % 2 ≠ 0 then do
        let P ← C.lshift P 1
        let G ← C.lshift G 1
        pure (P, G)
      else pure (P, G)
    let (P1, P0) ← bitScatter C P 0
    let (G1, G0) ← bitScatter C G 0
    let (v0, v1) ← vand2 C P0 G0 P1 P1
    let G' ← C.xorBB G1 v1
    carryLoop v0 G' ((if k % 2 ≠ 0 then k + 1 else k) / 2)
  else pure G
termination_by k
decreasing_by split <;> omega

/-- `carry_a2b` (`ab_api.cc:450-482`) -/
def carryA2B (x y : T) (k : ℕ) : M σ T := do
  let P ← C.xorBB x y
  let G ← C.andBB x y
  carryLoop C P G k

end

end Spu.Model.Circ

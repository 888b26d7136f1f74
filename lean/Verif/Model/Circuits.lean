import Verif.Model.Gates

set_option autoImplicit false

/-!
# `mpc/utils/circuits.h`: circuits over a `CircuitBasicBlock`

`simd` is `HasSimdTrait<T>::value`; with it two gates of one round are issued by one `vmap`
(modelled as two gate calls, see C09).
-/

namespace Spu.Model.Circ
open Spu.Model.Bits

/-- `CircuitBasicBlock<T>` (`circuits.h:31-56`); `set_nbits` updates its argument in place, here it
returns the updated value. -/
structure CBB (σ T : Type) where
  xor : T → T → M σ T
  and : T → T → M σ T
  lshift : T → ℕ → M σ T
  rshift : T → ℕ → M σ T
  initLike : T → BitVec 128 → M σ T
  setNbits : T → ℕ → M σ T

section
variable {σ T : Type} (C : CBB σ T) (simd : Bool)

/-- one round of `kogge_stone` (`circuits.h:75-91`) -/
def cbbKoggeRound (PG : T × T) (idx : ℕ) : M σ (T × T) := do
  let (P, G) := PG
  let offset := 2 ^ idx
  let G1 ← C.lshift G offset
  let P1 ← C.lshift P offset
  if simd then
    let r0 ← C.and P P1
    let r1 ← C.and P G1
    let G' ← C.xor G r1
    return (r0, G')
  else
    let tmp ← C.and P G1
    let P' ← C.and P P1
    let G' ← C.xor G tmp
    return (P', G')

/-- `kogge_stone` (`circuits.h:68-96`) -/
def cbbKoggeStone (lhs rhs : T) (nbits : ℕ) : M σ T := do
  let P ← C.xor lhs rhs
  let G ← C.and lhs rhs
  let PG ← (List.range (log2Ceil nbits)).foldlM (cbbKoggeRound C simd) (P, G)
  let c ← C.lshift PG.2 1
  let s ← C.xor lhs rhs
  C.xor s c

/-- `kKeepMasks` of `sklansky` (`circuits.h:101-109`) -/
def sklKeepMasks : List (BitVec 128) :=
  [0x55555555555555555555555555555555#128,
   0x33333333333333333333333333333333#128,
   0x0F0F0F0F0F0F0F0F0F0F0F0F0F0F0F0F#128,
   0x00FF00FF00FF00FF00FF00FF00FF00FF#128,
   0x0000FFFF0000FFFF0000FFFF0000FFFF#128,
   0x00000000FFFFFFFF00000000FFFFFFFF#128,
   0x0000000000000000FFFFFFFFFFFFFFFF#128]

/-- `kSelMask` of `sklansky` (`circuits.h:111-119`) -/
def sklSelMasks : List (BitVec 128) :=
  [0x55555555555555555555555555555555#128,
   0x22222222222222222222222222222222#128,
   0x08080808080808080808080808080808#128,
   0x00800080008000800080008000800080#128,
   0x00008000000080000000800000008000#128,
   0x00000000800000000000000080000000#128,
   0x00000000000000008000000000000000#128]

/-- spreading loop of `sklansky` (`circuits.h:129-132`) -/
def cbbSpread (G1 P1 : T) (idx : ℕ) : M σ (T × T) :=
  (List.range idx).foldlM (fun (gp : T × T) j => do
    let g ← C.lshift gp.1 (2 ^ j)
    let g ← C.xor gp.1 g
    let p ← C.lshift gp.2 (2 ^ j)
    let p ← C.xor gp.2 p
    return (g, p)) (G1, P1)

/-- one round of `sklansky` (`circuits.h:124-148`) -/
def cbbSklRound (PG : T × T) (idx : ℕ) : M σ (T × T) := do
  let (P, G) := PG
  let sm ← (sklSelMasks[idx]? : Option (BitVec 128))
  let km ← (sklKeepMasks[idx]? : Option (BitVec 128))
  let sMask ← C.initLike G sm
  let g ← C.and G sMask
  let G1 ← C.lshift g 1
  let p ← C.and P sMask
  let P1 ← C.lshift p 1
  let (G1, P1) ← cbbSpread C G1 P1 idx
  let kMask ← C.initLike G km
  let P1 ← C.xor P1 kMask
  if simd then
    let r0 ← C.and P P1
    let r1 ← C.and P G1
    let G' ← C.xor G r1
    return (r0, G')
  else
    let tmp ← C.and P G1
    let P' ← C.and P P1
    let G' ← C.xor G tmp
    return (P', G')

/-- `sklansky` (`circuits.h:98-153`) -/
def cbbSklansky (lhs rhs : T) (nbits : ℕ) : M σ T := do
  let P ← C.xor lhs rhs
  let G ← C.and lhs rhs
  let PG ← (List.range (log2Ceil nbits)).foldlM (cbbSklRound C simd) (P, G)
  let c ← C.lshift PG.2 1
  let s ← C.xor lhs rhs
  C.xor s c

/-- one level of `odd_even_split` (`circuits.h:186-195`) -/
def splitLevel (r : T) (idx : ℕ) : M σ T := do
  let K ← (keepMasks[idx]? : Option (BitVec 128))
  let S ← (swapMasks[idx]? : Option (BitVec 128))
  let keep ← C.initLike r K
  let move ← C.initLike r S
  let a ← C.and r keep
  let b ← C.rshift r (2 ^ idx)
  let b ← C.and b move
  let c ← C.and r move
  let c ← C.lshift c (2 ^ idx)
  let bc ← C.xor b c
  C.xor a bc

/-- the case of `odd_even_split` where `nbits` is not a power of two (`circuits.h:197-203`);
`1ULL << (nbits / 2)` is a 64-bit shift. -/
def splitFix (r : T) (nbits : ℕ) : M σ T := do
  if nbits / 2 ≥ 64 then failure
  let mask ← C.initLike r (((1 : BitVec 64) <<< (nbits / 2) - 1).setWidth 128)
  let h ← C.rshift r (2 ^ log2Floor nbits)
  let h ← C.lshift h (nbits / 2)
  let l ← C.and r mask
  C.xor h l

/-- `odd_even_split` (`circuits.h:155-205`) -/
def oddEvenSplit (v : T) (nbits : ℕ) : M σ T := do
  let r ← C.lshift v 0
  let r ← (List.range (log2Ceil nbits - 1)).foldlM (splitLevel C) r
  if singleBit nbits then return r else splitFix C r nbits

/-- `bit_split` inside `carry_out` (`circuits.h:226-238`): (even bits, odd bits) -/
def bitSplit (v : T) (kk : ℕ) : M σ (T × T) := do
  enforce (decide (kk % 2 = 0) && decide (kk ≤ 128))
  let hk := kk / 2
  let perm ← oddEvenSplit C v kk
  let mask ← C.initLike perm ((1 : BitVec 128) <<< hk - 1)
  let t0 ← C.and perm mask
  let h ← C.rshift perm hk
  let t1 ← C.and h mask
  let t0 ← C.setNbits t0 hk
  let t1 ← C.setNbits t1 hk
  return (t0, t1)

/-- loop of `carry_out` (`circuits.h:249-271`) -/
def carryOutLoop (P G : T) (k : ℕ) : M σ T :=
  if _h : k > 1 then do
    let (P, G) ← if k % 2 ≠ 0 then do
        let P ← C.lshift P 1
        let G ← C.lshift G 1
        pure (P, G)
      else pure (P, G)
    let k' := if k % 2 ≠ 0 then k + 1 else k
    let (P0, P1) ← bitSplit C P k'
    let (G0, G1) ← bitSplit C G k'
    let (P, G) ← if simd then do
        let v0 ← C.and P0 P1
        let v1 ← C.and G0 P1
        let G ← C.xor G1 v1
        pure (v0, G)
      else do
        let P ← C.and P1 P0
        let t ← C.and P1 G0
        let G ← C.xor G1 t
        pure (P, G)
    carryOutLoop P G (k' / 2)
  else pure G
termination_by k
decreasing_by split <;> omega

/-- `carry_out` (`circuits.h:220-274`) -/
def carryOutC (x y : T) (nbits : ℕ) : M σ T := do
  enforce (decide (nbits ≠ 0))
  let P ← C.xor x y
  let G ← C.and x y
  if nbits = 1 then
    let one ← C.initLike G 1
    C.and G one
  else carryOutLoop C simd P G nbits

end

end Spu.Model.Circ

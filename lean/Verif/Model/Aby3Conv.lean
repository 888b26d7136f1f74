import Verif.Model.Aby3Bool

set_option autoImplicit false

/-!
# aby3: conversions between arithmetic and boolean shares, sign bit, equality
(`mpc/aby3/conversion.cc`)
-/

namespace Spu.Model.Aby3
open Spu.Model.Circ Spu.Model.Bits Spu.Model.Prg Env
open Spu.Model.Semi2k (backBits)

section
variable {σ : Type} {w : ℕ}

/-- The two boolean shares `M`, `N` whose sum is the secret, from the zero share `r` (`conversion.cc:75-109`,
`572-601`): party 0 masks the sum of its components, parties 1 and 2 know the third one. -/
def splitA (x : Sh (BitVec w)) (r : (Fin 3 → BitVec w) × (Fin 3 → BitVec w)) : BShr × BShr :=
  let z : Fin 3 → BitVec w := fun i =>
    let t := r.1 i ^^^ r.2 i
    if i = 0 then t ^^^ (x.fst i + x.snd i) else t
  (⟨w, w, ⟨z, rotate z⟩⟩,
   ⟨w, w, ⟨fun i => if i = 2 then x.fst i else 0, fun i => if i = 1 then x.snd i else 0⟩⟩)

/-- `A2B::proc` (`conversion.cc:46-113`) -/
def a2b3 (E : Env σ) (x : Sh (BitVec w)) : M σ BShr := do
  let r ← both E w
  let mn := splitA x r
  addBB (gates3 (w := w) E) mn.1 mn.2

/-- `MsbA2B::proc` (`conversion.cc:550-623`) -/
def msbA2B3 (E : Env σ) (x : Sh (BitVec w)) : M σ BShr := do
  let r ← both E w
  let mn := splitA x r
  let carry ← carryA2B (gates3 (w := w) E) mn.1 mn.2 (w - 1)
  let s ← xorBB3 mn.1 mn.2
  let s ← rshiftB3 s (w - 1)
  xorBB3 s carry

/-- `B2AByPPA::proc` (`conversion.cc:142-252`) -/
def b2aPPA (E : Env σ) (a : BShr) : M σ (Sh (BitVec w)) := do
  enforce (decide (a.nb ≤ w))
  if a.nb = 0 then return ⟨fun _ => 0, fun _ => 0⟩
  else do
    let x : BShr := ⟨w, w, mapSh (BitVec.setWidth w) a.sh⟩
    let ra ← both E w
    let rb ← both E w
    let z : Fin 3 → BitVec w := fun i =>
      let zb := rb.1 i ^^^ rb.2 i
      if i = 1 then zb ^^^ (ra.1 i + ra.2 i) else zb
    let s ← addBB (gates3 (w := w) E) x ⟨w, w, ⟨z, rotate z⟩⟩
    -- party 2 sends its first component to party 0
    let o : Fin 3 → BitVec w := fun i =>
      if i = 0 then (s.sh.fst 0 ^^^ s.sh.snd 0 ^^^ s.sh.fst 2).setWidth w else -(ra.1 i)
    return ⟨o, rotate o⟩

/-- an array of boolean shares -/
structure BArr where
  v : ℕ
  nb : ℕ
  sh : Sh (Arr v)

/-- `bitDecompose` (`conversion.cc:255-272`): bit `f % nbits` of element `f / nbits` -/
def bitDecompose {v : ℕ} (x : Arr v) (nbits : ℕ) : ℕ → Bool := fun f => (x (f / nbits) >>> (f % nbits)).getLsbD 0

/-- `bitCompose` (`conversion.cc:274-286`) -/
def bitCompose (x : Arr w) (nbits : ℕ) : Arr w := fun idx =>
  (List.range nbits).foldl (fun acc bit => acc + x (idx * nbits + bit) <<< bit) 0

/-- `B2AByOT::proc` (`conversion.cc:315-453`) after the roles are fixed: `P0` helps, `P2` sends, `P1`
receives.  `r`, the masks: party `P0` draws `Both, First, First`, `P1` draws `Both`, `P2` draws
`Both, Second, Second`. -/
def b2aOTWith (E : Env σ) (N : ℕ) (a : BArr) (P0 P1 P2 : Fin 3) : M σ (Sh (Arr w)) := do
  let r ← E.prss w (N * a.nb) (fun i =>
    if i = P0 then [.both, .first, .first] else if i = P1 then [.both] else [.both, .second, .second])
  -- the sender
  let msg (neg : Bool) : Arr w := fun f =>
    let xx := a.sh.fst P2 (f / a.nb) ^^^ a.sh.snd P2 (f / a.nb)
    let t := one r 0 P2 f + two r 0 P2 f
    (((if neg then ~~~ xx else xx) >>> (f % a.nb)) &&& 1).setWidth w - t
  let m0 : Arr w := fun f => two r 1 P2 f ^^^ msg false f
  let m1 : Arr w := fun f => two r 2 P2 f ^^^ msg true f
  -- the helper
  let bh := bitDecompose (a.sh.snd P0) a.nb
  let mc : Arr w := fun f => if !bh f then one r 1 P0 f else one r 2 P0 f
  -- the receiver
  let br := bitDecompose (a.sh.fst P1) a.nb
  let c : Arr w := fun f => if !br f then m0 f ^^^ mc f else m1 f ^^^ mc f
  let c2 := bitCompose c a.nb
  return ⟨fun i => if i = P0 then bitCompose (one r 0 i) a.nb else if i = P1 then c2 else bitCompose (one r 0 i) a.nb,
    fun i => if i = P0 then c2 else bitCompose (two r 0 i) a.nb⟩

/-- `B2AByOT::proc` (`conversion.cc:315-453`) -/
def b2aOT (E : Env σ) (N : ℕ) (a : BArr) : M σ (Sh (Arr w)) := do
  enforce (decide (a.nb ≤ w))
  if a.nb = 0 then return ⟨fun _ _ => 0, fun _ _ => 0⟩
  else pivoted E (b2aOTWith E N a)

/-! ### Equality -/

/-- byte `f` of an array of words in memory (little endian) -/
def byteAt (x : Arr w) (f : ℕ) : BitVec 8 := (x (f / (w / 8)) >>> (8 * (f % (w / 8)))).setWidth 8

/-- The byte-wise AND of one round (`conversion.cc:816-831`): `lhs`, `rhs` are `half` bytes. -/
def andBytes (E : Env σ) (half : ℕ) (lhs rhs : Sh (Arr 8)) : M σ (Sh (Arr 8)) := do
  let r ← E.prss 8 half (fun _ => [.both])
  let z : Fin 3 → Arr 8 := fun i f =>
    (lhs.fst i f &&& rhs.fst i f) ^^^ (lhs.fst i f &&& rhs.snd i f) ^^^ (lhs.snd i f &&& rhs.fst i f)
      ^^^ (one r 0 i f ^^^ two r 0 i f)
  return ⟨z, rotate z⟩

/-- first halves of the `b` bytes of every element -/
def leftHalf (b : ℕ) (x : Arr 8) : Arr 8 := fun f => x (f / (b / 2) * b + f % (b / 2))
/-- second halves -/
def rightHalf (b : ℕ) (x : Arr 8) : Arr 8 := fun f => x (f / (b / 2) * b + b / 2 + f % (b / 2))

/-- The loop of `eqz` (`conversion.cc:767-837`): `b` bytes and `c` bits per element are left of the `N`
elements.  The code counts bytes and bits of the whole array (`b * N`, `c * N`).  It would not stop if the
bits per element reached zero. -/
def eqzLoop3 (E : Env σ) (N b c : ℕ) (x : Sh (Arr 8)) : M σ (Sh (Arr 8)) :=
  if _h1 : c * N = N then pure x
  else if _h0 : c = 0 then failure
  else if b = 1 then do
    let y ← andBytes E N (mapSh (fun a : Arr 8 => fun f => a f >>> (c / 2)) x) x
    eqzLoop3 E N 1 (c / 2) y
  else do
    let y ← andBytes E (b * N / 2) (mapSh (leftHalf b) x) (mapSh (rightHalf b) x)
    eqzLoop3 E N (b / 2) (c / 2) y
termination_by c
decreasing_by all_goals omega

/-- the all-ones test word before the ANDs (`conversion.cc:668-754`) after the roles are fixed: `P0` deals,
`P1`, `P2` reveal `a + r` to `P1` -/
def eqzFlag (E : Env σ) (N : ℕ) (x : Sh (Arr w)) (P0 P1 P2 : Fin 3) : M σ (Sh (Arr w)) := do
  let rr ← E.priv w N P0
  let r ← E.prss w N (fun i =>
    if i = P0 then [.second, .second, .second] else if i = P1 then [.first, .first, .first] else [])
  -- `P0`
  let ra1 : Arr w := fun j => rr j - two r 0 P0 j
  let rb1 : Arr w := fun j => rr j ^^^ two r 1 P0 j
  -- `P1`, `P2`
  let c1 : Arr w := fun j => one r 0 P1 j + (x.fst P1 j + x.snd P1 j)
  let c2 : Arr w := fun j => ra1 j + x.snd P2 j
  let flag : Arr w := fun j => ~~~ ((c2 j + c1 j) ^^^ one r 1 P1 j) ^^^ one r 2 P1 j
  return ⟨fun i => if i = P0 then rb1 else if i = P1 then one r 2 P1 else flag,
    fun i => if i = P0 then two r 2 P0 else if i = P1 then flag else rb1⟩

/-- `eqz` (`conversion.cc:644-849`) after the roles are fixed -/
def eqzWith (E : Env σ) (N : ℕ) (x : Sh (Arr w)) (P0 P1 P2 : Fin 3) : M σ BArr := do
  let z ← eqzFlag E N x P0 P1 P2
  let y ← eqzLoop3 E N (w / 8) w (mapSh byteAt z)
  return ⟨8, 8, y⟩

/-- `eqz` (`conversion.cc:644-849`) -/
def eqz3 (E : Env σ) (N : ℕ) (x : Sh (Arr w)) : M σ BArr := pivoted E (eqzWith E N x)

/-- `EqualAA::proc` (`conversion.cc:851-873`) -/
def equalAA3 (E : Env σ) (N : ℕ) (x y : Sh (Arr w)) : M σ BArr :=
  eqz3 E N (zipSh (fun a b j => a j - b j) x y)

/-- `EqualAP::proc` (`conversion.cc:875-905`) -/
def equalAP3 (E : Env σ) (N : ℕ) (x : Sh (Arr w)) (p : Arr w) : M σ BArr :=
  eqz3 E N ⟨fun i j => if i = 1 then x.fst i j - p j else x.fst i j,
    fun i j => if i = 0 then x.snd i j - p j else x.snd i j⟩

/-- `B2ASelector::proc` (`conversion.cc:115-127`), the array one element after the other on the adder path -/
def b2aSelect (E : Env σ) (a : BShr) : M σ (Sh (BitVec w)) :=
  if a.nb ≤ 8 then do
    let r ← b2aOT E 1 ⟨a.v, a.nb, mapSh (fun l _ => l) a.sh⟩
    return mapSh (fun l : Arr w => l 0) r
  else b2aPPA E a

end

end Spu.Model.Aby3

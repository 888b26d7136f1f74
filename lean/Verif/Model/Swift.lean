import Mathlib.Data.BitVec
import Mathlib.LinearAlgebra.Matrix.Notation

set_option autoImplicit false

/-!
# SWIFT: three-party arithmetic shares with joint message passing
(`mpc/experimental/swift/{arithmetic,io}.cc`)

Party `i` holds a triple (`std::array<el_t, 3>`).  The intended layout (`io.cc:77-86`) is
`P0: α₁, α₂, β + γ`, `P1: α₁, β, γ`, `P2: α₂, β, γ`, for the value `β - α₁ - α₂`.

A kernel is written for all three parties at once; a message is a use of another party's value (links
are reliable and ordered, trusted base).  Words drawn from `PrgState` are arguments: a PRSS pair is
`r0 r1 : Fin 3 → _`, the word every party reads from its own and from its neighbour's stream; a public
draw is one value.  `u` is the contents of uninitialised memory.  The state `Bool` records whether some
`JointMessagePassing` has reported an inconsistency: the code logs it and goes on.  `none` is an
exception (or, in `JMP`, a deadlock).
-/

namespace Spu.Model.Swift

/-- `std::array<el_t, 3>` at one party -/
@[ext] structure Shr (R : Type) where
  a : R
  b : R
  c : R
deriving DecidableEq, Repr

/-- exceptions, and the reports of `JointMessagePassing` -/
abbrev M := StateT Bool Option

/-- `hash_func` on the bytes of a message of the given type -/
abbrev HashFn := (α : Type) → α → ℕ

/-- the value a party gets from the next one (`Communicator::rotate`) -/
def rotate {α : Type} (x : Fin 3 → α) : Fin 3 → α := fun i => x (i + 1)

/-! ### Joint message passing -/

namespace JMP
/-- the three parts played in `JointMessagePassing` -/
inductive Role where
  | send
  | hash
  | recv
deriving DecidableEq, Repr

/-- What a corrupted party does in `JointMessagePassing`, whatever its part:
the message or digest it sends first, the bits it sends, and its contribution to the `AllGather`
(possibly different for every receiver). -/
structure Adv (α D : Type) where
  msg : α
  digest : D
  bit : Role → Bool
  bcast : Role → D

/-- what a party has at the end: the contents of `msg`, and the party it has named as trusted -/
structure Res (α : Type) where
  msg : α
  ttp : Option Role
deriving DecidableEq, Repr

variable {α D : Type} [DecidableEq D]

/-- the verdict after the `AllGather` (`arithmetic.cc:192-204`) -/
def verdict (h : Role → D) : Role :=
  if h .send ≠ h .hash then .recv else if h .send ≠ h .recv then .hash else .send

/-- `JointMessagePassing` (`arithmetic.cc:51-206`) when the party playing `bad` deviates as `A` says.
`v` is the contents of `msg` at each party before the call.  `H` is the digest the second sender sends and
the receiver recomputes (`:103`, `:142`; for short messages the receiver gets the message itself and
hashes both, `:147-164`), `H0` the digest of the `AllGather` (`:180`).
A party enters the `AllGather` if and only if its own bit is set: when the honest parties do not agree
on the bit, one of them waits for ever. -/
def run (H H0 : α → D) (bad : Option Role) (A : Adv α D) (v : Role → α) : Option (Role → Res α) :=
  let m := if bad = some .send then A.msg else v .send                  -- send → recv
  let h := if bad = some .hash then A.digest else H (v .hash)            -- hash → recv
  let b := decide (H m ≠ h)                                                -- at recv
  let bTo (r : Role) := if bad = some .recv then A.bit r else b          -- recv → send, hash
  let fromSend := if bad = some .send then A.bit .hash else bTo .send
  let fromHash := if bad = some .hash then A.bit .send else bTo .hash
  let bit : Role → Bool
    | .send => bTo .send || fromHash
    | .hash => bTo .hash || fromSend
    | .recv => b
  let held : Role → α
    | .send => v .send
    | .hash => v .hash
    | .recv => m
  let honest := [Role.send, .hash, .recv].filter (fun r => bad ≠ some r)
  if honest.all (fun r => ! bit r) then some (fun r => ⟨held r, none⟩)
  else if honest.all bit then
    some (fun r => ⟨held r, some (verdict (fun s => if bad = some s then A.bcast r else H0 (held s)))⟩)
  else none
end JMP

/-- `JointMessagePassing` among parties that follow it: the receiver ends with what the sender sent; when
the digests of the two senders differ every party logs it, and the call returns all the same
(`arithmetic.cc:174`, `:192-204`) -/
def jmp {α : Type} (H : HashFn) (send hash recv : Fin 3) (msg : Fin 3 → α) : M (Fin 3 → α) :=
  fun alarm => some (Function.update msg recv (msg send), alarm || decide (H α (msg send) ≠ H α (msg hash)))

/-! ### Kernels that only use ring operations -/

section Ring
variable {R : Type} [Ring R]

/-- the triple `Sharing`, `RandA` and `MulAA` assemble (`arithmetic.cc:344-348`) -/
def pack (al1 al2 be ga bg : Fin 3 → R) : Fin 3 → Shr R := fun i =>
  ⟨if i = 2 then al2 i else al1 i, if i = 0 then al2 i else be i, if i = 0 then bg i else ga i⟩

/-- `Sharing` (`arithmetic.cc:212-352`), the kernel `V2A` (`:545-556`): party `owner` shares `v` -/
def sharing (H : HashFn) (owner : Fin 3) (v : R) (r0 r1 : Fin 3 → R) (r2 u : R) : M (Fin 3 → Shr R) :=
  if owner = 0 then do
    let al1 : Fin 3 → R := ![r1 0, r0 1, u]
    let al2 : Fin 3 → R := ![r0 0, u, r1 2]
    let ga : Fin 3 → R := fun _ => r2
    let be0 := v + (al1 0 + al2 0)
    let be : Fin 3 → R := ![be0, be0, u]
    let be ← jmp H 0 1 2 be
    return pack al1 al2 be ga ![be 0 + ga 0, u, u]
  else if owner = 1 then do
    let al1 : Fin 3 → R := ![r1 0, r0 1, u]
    let ga : Fin 3 → R := ![u, r1 1, r0 2]
    let al2 : Fin 3 → R := fun _ => r2
    let be1 := v + (al1 1 + al2 1)
    let be : Fin 3 → R := ![u, be1, be1]
    let bg ← jmp H 1 2 0 (fun i => be i + ga i)
    return pack al1 al2 be ga bg
  else do
    let al2 : Fin 3 → R := ![r0 0, u, r1 2]
    let ga : Fin 3 → R := ![u, r1 1, r0 2]
    let al1 : Fin 3 → R := fun _ => r2
    let be2 := v + (al1 2 + al2 2)
    let be : Fin 3 → R := ![u, be2, be2]
    let bg ← jmp H 2 1 0 (fun i => be i + ga i)
    return pack al1 al2 be ga bg

/-- `JointSharing` (`arithmetic.cc:358-426`): parties `i` and `j` share what both know.
`msg` is the argument at every party (the third one's is not used), `r` a public draw. -/
def jointSharing (i j : Fin 3) (msg : Fin 3 → R) (r : R) : Option (Fin 3 → Shr R) :=
  if (i = 1 ∧ j = 2) ∨ (i = 2 ∧ j = 1) then
    some fun k => ⟨0, if k = 0 then 0 else msg k, if k = 0 then r else r - msg k⟩
  else if (i = 1 ∧ j = 0) ∨ (i = 0 ∧ j = 1) then
    some fun k => ⟨if k = 2 then 0 else -msg k, 0, r⟩
  else if (i = 2 ∧ j = 0) ∨ (i = 0 ∧ j = 2) then
    some fun k => ⟨if k = 2 then -msg k else 0, if k = 0 then -msg k else 0, r⟩
  else none

/-- `P2A::proc` (`arithmetic.cc:428-457`) -/
def p2a (p : R) : Fin 3 → Shr R := fun i => ⟨0, if i = 0 then 0 else p, if i = 0 then p else 0⟩

/-- the parts of a share each party can read (`arithmetic.cc:479-490`) -/
def al1Of (x : Fin 3 → Shr R) (u : R) : Fin 3 → R := ![(x 0).a, (x 1).a, u]
@[inherit_doc al1Of] def al2Of (x : Fin 3 → Shr R) (u : R) : Fin 3 → R := ![(x 0).b, u, (x 2).a]
@[inherit_doc al1Of] def beOf (x : Fin 3 → Shr R) (u : R) : Fin 3 → R := ![u, (x 1).b, (x 2).b]

/-- `A2P::proc` (`arithmetic.cc:459-507`): what every party ends with -/
def a2p (H : HashFn) (x : Fin 3 → Shr R) (u : R) : M (Fin 3 → R) := do
  let be ← jmp H 1 2 0 (beOf x u)
  let al1 ← jmp H 0 1 2 (al1Of x u)
  let al2 ← jmp H 2 0 1 (al2Of x u)
  return fun i => be i - al1 i - al2 i

/-- `A2V::proc` (`arithmetic.cc:509-568`): what party `dst` ends with -/
def a2v (H : HashFn) (x : Fin 3 → Shr R) (dst : Fin 3) (u : R) : M R := do
  let be ← (if dst = 0 then jmp H 1 2 0 (beOf x u) else pure (beOf x u) : M (Fin 3 → R))
  let al2 ← (if dst = 1 then jmp H 2 0 1 (al2Of x u) else pure (al2Of x u) : M (Fin 3 → R))
  let al1 ← (if dst = 2 then jmp H 0 1 2 (al1Of x u) else pure (al1Of x u) : M (Fin 3 → R))
  return be dst - al1 dst - al2 dst

/-- `NegateA::proc` (`arithmetic.cc:583-605`) -/
def negateA (x : Fin 3 → Shr R) : Fin 3 → Shr R := fun i => ⟨-(x i).a, -(x i).b, -(x i).c⟩

/-- `RandA::proc` (`arithmetic.cc:607-661`): `r0 r1` is the first, `r2 r3` the second PRSS draw.
Both `P1` and `P2` take `γ` from the *second* stream of the second draw (`:639`, `:644`). -/
def randA (H : HashFn) (r0 r1 _r2 r3 : Fin 3 → R) (u : R) : M (Fin 3 → Shr R) := do
  let al1 : Fin 3 → R := ![r1 0, r0 1, u]
  let al2 : Fin 3 → R := ![r0 0, u, r1 2]
  let be : Fin 3 → R := ![u, r1 1, r0 2]
  let ga : Fin 3 → R := ![u, r3 1, r3 2]
  let bg ← jmp H 1 2 0 (fun i => be i + ga i)
  return pack al1 al2 be ga bg

/-- `AddAP::proc` (`arithmetic.cc:666-697`) -/
def addAP (x : Fin 3 → Shr R) (p : R) : Fin 3 → Shr R := fun i =>
  ⟨(x i).a, if i = 1 ∨ i = 2 then (x i).b + p else (x i).b, if i = 0 then (x i).c + p else (x i).c⟩

/-- `AddAA::proc` (`arithmetic.cc:699-723`) -/
def addAA (x y : Fin 3 → Shr R) : Fin 3 → Shr R := fun i =>
  ⟨(x i).a + (y i).a, (x i).b + (y i).b, (x i).c + (y i).c⟩

/-- `MulAP::proc` (`arithmetic.cc:728-753`) -/
def mulAP (x : Fin 3 → Shr R) (p : R) : Fin 3 → Shr R := fun i => ⟨(x i).a * p, (x i).b * p, (x i).c * p⟩

/-- `SwiftIo::toShares` for a secret without owner (`io.cc:66-91`): `al = al1 + al2` is a random
additive split (`ring_rand_additive_splits`) -/
def toShares (v al1 al ga : R) : Fin 3 → Shr R :=
  let al2 := al - al1
  let be := v + al
  ![⟨al1, al2, ga + be⟩, ⟨al1, be, ga⟩, ⟨al2, be, ga⟩]

/-- `SwiftIo::fromShares` for an arithmetic share (`io.cc:121-124`) -/
def fromShares (x : Fin 3 → Shr R) : R := (x 1).b - (x 0).a - (x 0).b

end Ring

/-! ### Multiplication -/

section Mul
variable {X Y Z X' Y' Z' : Type}

/-- a replicated share (`RandA_RSS` … `RSS_AddAP` use the first two of the three words) -/
abbrev Rss (X : Type) := Fin 3 → X × X

/-- `RandA_RSS` (`arithmetic.cc:755-786`) -/
def rssRand (r0 r1 : Fin 3 → X) : Rss X := fun i => (r0 i, r1 i)

/-- `RSS_A2P` (`arithmetic.cc:788-815`): what every party computes -/
def rssOpen [Add X] (x : Rss X) : Fin 3 → X := fun i => (x i).1 + (x i).2 + rotate (fun j => (x j).2) i

/-- `RssMul_semi` (`arithmetic.cc:817-862`), `MatRssMul_semi` (`:1250-1291`), `DotProductRSS_semi` (`:1530-1565`):
`mul` is the product of the ring, of matrices, or the batched inner product -/
def rssMul [Add Z] [Sub Z] (mul : X → Y → Z) (x : Rss X) (y : Rss Y) (r0 r1 : Fin 3 → Z) : Rss Z :=
  let z : Fin 3 → Z := fun i =>
    mul (x i).1 (y i).1 + mul (x i).1 (y i).2 + mul (x i).2 (y i).1 + (r0 i - r1 i)
  fun i => (z i, rotate z i)

/-- component-wise operations on replicated shares (`AddAA`, `NegateA`, `MulAP`, `MatMulPA`, …) -/
def rssMap (f : X → Z) (x : Rss X) : Rss Z := fun i => (f (x i).1, f (x i).2)
@[inherit_doc rssMap]
def rssZip (f : X → Y → Z) (x : Rss X) (y : Rss Y) : Rss Z := fun i => (f (x i).1 (y i).1, f (x i).2 (y i).2)

/-- `RSS_AddAP` (`arithmetic.cc:864-897`): party `i` adds the public value it has opened -/
def rssAddP [Add X] (x : Rss X) (p : Fin 3 → X) : Rss X := fun i =>
  (if i = 1 then (x i).1 + p i else (x i).1, if i = 0 then (x i).2 + p i else (x i).2)

/-- what one call of `MulPre` draws: three random values and two masks of zero in the larger ring -/
structure PreRand (X' Y' Z' : Type) where
  a0 : Fin 3 → X'
  a1 : Fin 3 → X'
  t0 : Fin 3 → X'
  t1 : Fin 3 → X'
  b0 : Fin 3 → Y'
  b1 : Fin 3 → Y'
  c0 : Fin 3 → Z'
  c1 : Fin 3 → Z'
  d0 : Fin 3 → Z'
  d1 : Fin 3 → Z'

/-- one multiplication: the product in the ring of the shares and in the larger ring, multiplication by
the public challenge `r` on both sides, and the reductions (`RingChange`, `arithmetic.cc:900-953`) -/
structure Prod (X Y Z X' Y' Z' : Type) where
  mul : X → Y → Z
  mul' : X' → Y' → Z'
  sx : X' → X'
  sz : Z' → Z'
  rx : X' → X
  ry : Y' → Y
  rz : Z' → Z

/-- `MulPre` (`arithmetic.cc:963-1031`), `MatMulPre` (`:1293-1383`), `DotProductPre` (`:1613-1701`): a triple
`(a, b, c)` of the larger ring is checked against `(a', b, c')` with a public challenge and then used -/
def mulPre [Add X] [Neg X] [Add Y] [Neg Y] [Add Z] [Neg Z] [Add X'] [Neg X'] [Add Z'] [Sub Z'] [Neg Z'] [Zero Z']
    [DecidableEq Z'] (P : Prod X Y Z X' Y' Z') (D : PreRand X' Y' Z') (x : Rss X) (y : Rss Y) : Option (Rss Z) :=
  let a := rssRand D.a0 D.a1
  let a' := rssRand D.t0 D.t1
  let b := rssRand D.b0 D.b1
  let c := rssMul P.mul' a b D.c0 D.c1
  let c' := rssMul P.mul' a' b D.d0 D.d1
  let v := rssOpen (rssZip (· + ·) (rssMap P.sx a) (rssMap (- ·) a'))
  let nrc := rssMap (- ·) (rssMap P.sz c)
  let vb : Rss Z' := fun i => (P.mul' (v i) (b i).1, P.mul' (v i) (b i).2)
  let w := rssOpen (rssZip (· + ·) (rssZip (· + ·) vb nrc) c')
  if ∀ i, w i = 0 then
    let a := rssMap P.rx a
    let b := rssMap P.ry b
    let c := rssMap P.rz c
    let e := rssOpen (rssZip (· + ·) x (rssMap (- ·) a))
    let f := rssOpen (rssZip (· + ·) y (rssMap (- ·) b))
    let eb : Rss Z := fun i => (P.mul (e i) (b i).1, P.mul (e i) (b i).2)
    let af : Rss Z := fun i => (P.mul (a i).1 (f i), P.mul (a i).2 (f i))
    some (rssAddP (rssZip (· + ·) (rssZip (· + ·) c eb) af) (fun i => P.mul (e i) (f i)))
  else none

/-- `MulAA::proc` (`arithmetic.cc:1037-1207`), `MatMulAA::proc` (`:1386-1506`), `DotProductAA` (`:1703-1858`);
`pre` is the preprocessed product of replicated shares -/
def mulWith [Add X] [Neg X] [Add Y] [Neg Y] [Add Z] [Neg Z] [Sub Z] (H : HashFn) (mul : X → Y → Z)
    (pre : Rss X → Rss Y → Option (Rss Z)) (x : Fin 3 → Shr X) (y : Fin 3 → Shr Y) (r0 r1 : Fin 3 → Z) (u : Z) :
    M (Fin 3 → Shr Z) := do
  let az1 : Fin 3 → Z := ![r1 0, r0 1, u]
  let az2 : Fin 3 → Z := ![r0 0, u, r1 2]
  let gz : Fin 3 → Z := ![u, r1 1, r0 2]
  let d : Rss X := ![((x 0).b, (x 0).a), ((x 1).a, (x 1).c), ((x 2).c, (x 2).a)]
  let e : Rss Y := ![((y 0).b, (y 0).a), ((y 1).a, (y 1).c), ((y 2).c, (y 2).a)]
  let f ← (StateT.lift (pre d e) : M (Rss Z))
  let chi1 : Fin 3 → Z := ![(f 0).2, (f 1).1, u]
  let chi2 : Fin 3 → Z := ![(f 0).1, u, (f 2).2]
  let phi : Fin 3 → Z := ![u, (f 1).2 - mul (x 1).c (y 1).c, (f 2).1 - mul (x 2).c (y 2).c]
  let bs1 : Fin 3 → Z := ![-mul (x 0).c (y 0).a + -mul (x 0).a (y 0).c + az1 0 + chi1 0,
    mul (-((x 1).b + (x 1).c)) (y 1).a + mul (x 1).a (-((y 1).b + (y 1).c)) + az1 1 + chi1 1, u]
  let bs2 : Fin 3 → Z := ![-mul (x 0).c (y 0).b + -mul (x 0).b (y 0).c + az2 0 + chi2 0, u,
    mul (-((x 2).b + (x 2).c)) (y 2).a + mul (x 2).a (-((y 2).b + (y 2).c)) + az2 2 + chi2 2]
  let bs1 ← jmp H 0 1 2 bs1
  let bs2 ← jmp H 0 2 1 bs2
  let be : Fin 3 → Z := fun i => bs1 i + bs2 i + mul (x i).b (y i).b + phi i
  let bg : Fin 3 → Z := ![u, be 1 + gz 1, be 2 + gz 2]
  let bg ← jmp H 1 2 0 bg
  return ![⟨az1 0, az2 0, bg 0⟩, ⟨az1 1, be 1, gz 1⟩, ⟨az2 2, be 2, gz 2⟩]

/-- the fields for which a larger one exists (`arithmetic.cc:973-981`) -/
def fieldOk (k : ℕ) : Bool := k == 32 || k == 64

/-- `MulAA::proc` with `MulPre`: one element; `ch` is the public challenge, zero-extended -/
def mulProd (k : ℕ) (ch : BitVec k) :
    Prod (BitVec k) (BitVec k) (BitVec k) (BitVec (2 * k)) (BitVec (2 * k)) (BitVec (2 * k)) where
  mul := (· * ·)
  mul' := (· * ·)
  sx := fun v => v * ch.setWidth (2 * k)
  sz := fun v => v * ch.setWidth (2 * k)
  rx := fun v => v.setWidth k
  ry := fun v => v.setWidth k
  rz := fun v => v.setWidth k

/-- `MatMulAA::proc` with `MatMulPre` -/
def matProd (k m n l : ℕ) (ch : BitVec k) :
    Prod (Matrix (Fin m) (Fin n) (BitVec k)) (Matrix (Fin n) (Fin l) (BitVec k)) (Matrix (Fin m) (Fin l) (BitVec k))
      (Matrix (Fin m) (Fin n) (BitVec (2 * k))) (Matrix (Fin n) (Fin l) (BitVec (2 * k)))
      (Matrix (Fin m) (Fin l) (BitVec (2 * k))) where
  mul := (· * ·)
  mul' := (· * ·)
  sx := fun v => v.map (· * ch.setWidth (2 * k))
  sz := fun v => v.map (· * ch.setWidth (2 * k))
  rx := fun v => v.map (·.setWidth k)
  ry := fun v => v.map (·.setWidth k)
  rz := fun v => v.map (·.setWidth k)

/-- `ring_dotproduct` (`arithmetic.cc:1512-1533`): the `idx`-th result of a batch of inner products of
length `n` -/
def dot {k : ℕ} (n : ℕ) (x y : ℕ → BitVec k) (idx : ℕ) : BitVec k :=
  (List.range n).foldl (fun z i => z + x (idx * n + i) * y (idx * n + i)) 0

/-- `DotProductAA` with `DotProductPre` for `B` inner products of length `n`.  Arrays are functions of the
flat index; `Fin (B * n)`-indexed so that the check on `w` is about the elements that exist. -/
def dotProd (k B n : ℕ) (ch : BitVec k) :
    Prod (ℕ → BitVec k) (ℕ → BitVec k) (Fin B → BitVec k) (ℕ → BitVec (2 * k)) (ℕ → BitVec (2 * k))
      (Fin B → BitVec (2 * k)) where
  mul := fun x y i => dot n x y i
  mul' := fun x y i => dot n x y i
  sx := fun v i => v i * ch.setWidth (2 * k)
  sz := fun v i => v i * ch.setWidth (2 * k)
  rx := fun v i => (v i).setWidth k
  ry := fun v i => (v i).setWidth k
  rz := fun v i => (v i).setWidth k

variable {k : ℕ}

@[inherit_doc mulWith]
def mulAA (H : HashFn) (ch : BitVec k) (D : PreRand (BitVec (2 * k)) (BitVec (2 * k)) (BitVec (2 * k)))
    (x y : Fin 3 → Shr (BitVec k)) (r0 r1 : Fin 3 → BitVec k) (u : BitVec k) : M (Fin 3 → Shr (BitVec k)) :=
  mulWith H (· * ·) (fun d e => if fieldOk k then mulPre (mulProd k ch) D d e else none) x y r0 r1 u

@[inherit_doc mulWith]
def matMulAA {m n l : ℕ} (H : HashFn) (ch : BitVec k)
    (D : PreRand (Matrix (Fin m) (Fin n) (BitVec (2 * k))) (Matrix (Fin n) (Fin l) (BitVec (2 * k)))
      (Matrix (Fin m) (Fin l) (BitVec (2 * k))))
    (x : Fin 3 → Shr (Matrix (Fin m) (Fin n) (BitVec k))) (y : Fin 3 → Shr (Matrix (Fin n) (Fin l) (BitVec k)))
    (r0 r1 : Fin 3 → Matrix (Fin m) (Fin l) (BitVec k)) (u : Matrix (Fin m) (Fin l) (BitVec k)) :
    M (Fin 3 → Shr (Matrix (Fin m) (Fin l) (BitVec k))) :=
  mulWith H (· * ·) (fun d e => if fieldOk k then mulPre (matProd k m n l ch) D d e else none) x y r0 r1 u

/-- what one call of `DotProductAA` draws -/
structure DotRand (k B : ℕ) where
  ch : BitVec k
  pre : PreRand (ℕ → BitVec (2 * k)) (ℕ → BitVec (2 * k)) (Fin B → BitVec (2 * k))
  r0 : Fin 3 → Fin B → BitVec k
  r1 : Fin 3 → Fin B → BitVec k

@[inherit_doc mulWith]
def dotAA (H : HashFn) {B : ℕ} (n : ℕ) (D : DotRand k B) (x y : Fin 3 → Shr (ℕ → BitVec k)) (u : Fin B → BitVec k) :
    M (Fin 3 → Shr (Fin B → BitVec k)) :=
  mulWith H (fun x y i => dot n x y i) (fun d e => if fieldOk k then mulPre (dotProd k B n D.ch) D.pre d e else none)
    x y D.r0 D.r1 u

end Mul

/-- `MatMulAP::proc` (`arithmetic.cc:1212-1230`) -/
def matMulAP {k m n l : ℕ} (x : Fin 3 → Shr (Matrix (Fin m) (Fin n) (BitVec k))) (y : Matrix (Fin n) (Fin l) (BitVec k)) :
    Fin 3 → Shr (Matrix (Fin m) (Fin l) (BitVec k)) := fun i => ⟨(x i).a * y, (x i).b * y, (x i).c * y⟩

/-- `LShiftA::proc` (`arithmetic.cc:1860-1881`); a shift by the width or more is undefined -/
def lshiftA {k : ℕ} (x : Fin 3 → Shr (BitVec k)) (s : ℕ) : Option (Fin 3 → Shr (BitVec k)) :=
  if s < k then some fun i => ⟨(x i).a <<< s, (x i).b <<< s, (x i).c <<< s⟩ else none

/-! ### Truncation -/

section Trunc
variable {k : ℕ}

/-- `ring2k_t(1) << s`: a shift by `k` is undefined in C++; `ub` is whatever it evaluates to -/
def oneShl (ub : BitVec k) (s : ℕ) : BitVec k := if s < k then 1#k <<< s else ub

/-- a component of every element of an array of shares -/
def compA (x : ℕ → Fin 3 → Shr (BitVec k)) : Fin 3 → Shr (ℕ → BitVec k) := fun i =>
  ⟨fun n => (x n i).a, fun n => (x n i).b, fun n => (x n i).c⟩

/-- one scaled share (the comment `MulAP` in `Trgen`) -/
def scale (c : BitVec k) (x : Fin 3 → Shr (BitVec k)) : Fin 3 → Shr (BitVec k) := fun i =>
  ⟨c * (x i).a, c * (x i).b, c * (x i).c⟩

/-- what `Trgen` draws for `N` elements -/
structure TrRand (k N : ℕ) where
  p0 : Fin 3 → ℕ → BitVec k
  p1 : Fin 3 → ℕ → BitVec k
  j1 : ℕ → BitVec k
  j2 : ℕ → BitVec k
  A : DotRand k N
  B : DotRand k N

/-- `r1_bits_share`, `r2_bits_share` (`arithmetic.cc:1953-1981`): the bits of the word `P0` has in common with `P1`, and
of the word it has in common with `P2`, shared by the two that know it -/
def trS1 {N : ℕ} (D : TrRand k N) (u : BitVec k) (n : ℕ) : Fin 3 → Shr (BitVec k) :=
  let r1 : Fin 3 → ℕ → BitVec k := ![D.p1 0, D.p0 1, fun _ => u]
  (jointSharing 0 1 (fun p => (r1 p (n / k) >>> (n % k)) &&& 1) (D.j1 n)).getD fun _ => ⟨0, 0, 0⟩
@[inherit_doc trS1]
def trS2 {N : ℕ} (D : TrRand k N) (u : BitVec k) (n : ℕ) : Fin 3 → Shr (BitVec k) :=
  let r2 : Fin 3 → ℕ → BitVec k := ![D.p0 0, fun _ => u, D.p1 2]
  (jointSharing 0 2 (fun p => (r2 p (n / k) >>> (n % k)) &&& 1) (D.j2 n)).getD fun _ => ⟨0, 0, 0⟩

/-- `TruncA::Trgen` (`arithmetic.cc:1887-2093`): shares of a random `r` and of `r >> bits` (arithmetically) for
each of the `N` elements -/
def trgen (H : HashFn) (N bits : ℕ) (D : TrRand k N) (ub u : BitVec k) :
    M ((Fin N → Fin 3 → Shr (BitVec k)) × (Fin N → Fin 3 → Shr (BitVec k))) := do
  let high : BitVec k := BitVec.allOnes k <<< (k - bits)
  let s1 := trS1 D u
  let s2 := trS2 D u
  let L := k - bits + 1
  let X (n : ℕ) : Fin 3 → Shr (BitVec k) :=
    if n % L < k - bits then scale (oneShl ub (n % L + 1)) (s1 (n / L * k + (n % L + bits)))
    else scale (2 * high) (s1 ((n / L + 1) * k - 1))
  let Y (n : ℕ) : Fin 3 → Shr (BitVec k) :=
    if n % L < k - bits then s2 (n / L * k + (n % L + bits)) else s2 ((n / L + 1) * k - 1)
  let P (n : ℕ) : Fin 3 → Shr (BitVec k) := scale (oneShl ub (n % k + 1)) (s1 n)
  let Q (n : ℕ) : Fin 3 → Shr (BitVec k) := s2 n
  let A ← dotAA H L D.A (compA X) (compA Y) (fun _ => u)
  let B ← dotAA H k D.B (compA P) (compA Q) (fun _ => u)
  let rd (idx : Fin N) : Fin 3 → Shr (BitVec k) :=
    let acc := (List.range (k - bits)).foldl (fun acc j =>
      addAA acc (scale (1#k <<< j) (addAA (s1 (idx * k + (j + bits))) (s2 (idx * k + (j + bits)))))) (fun _ => ⟨0, 0, 0⟩)
    let acc := addAA acc (scale high (addAA (s1 ((idx + 1) * k - 1)) (s2 ((idx + 1) * k - 1))))
    addAA acc (negateA fun i => ⟨(A i).a idx, (A i).b idx, (A i).c idx⟩)
  let r (idx : Fin N) : Fin 3 → Shr (BitVec k) :=
    let acc := (List.range k).foldl (fun acc j =>
      addAA acc (scale (1#k <<< j) (addAA (s1 (idx * k + j)) (s2 (idx * k + j))))) (fun _ => ⟨0, 0, 0⟩)
    addAA acc (negateA fun i => ⟨(B i).a idx, (B i).b idx, (B i).c idx⟩)
  return (r, rd)

/-- `TruncA::proc` (`arithmetic.cc:2095-2135`) for `N` elements: `x - r` is opened, shifted, and added to the
share of `r >> bits` -/
def truncA (H : HashFn) (N bits : ℕ) (D : TrRand k N) (x : Fin N → Fin 3 → Shr (BitVec k)) (ub u : BitVec k) :
    M (Fin N → Fin 3 → Shr (BitVec k)) := do
  let (r, rd) ← trgen H N bits D ub u
  let diff : Fin 3 → Shr (Fin N → BitVec k) := fun i =>
    ⟨fun n => (addAA (x n) (negateA (r n)) i).a, fun n => (addAA (x n) (negateA (r n)) i).b,
      fun n => (addAA (x n) (negateA (r n)) i).c⟩
  let op ← a2p H diff (fun _ => u)
  return fun n i =>
    ⟨(rd n i).a, if i = 1 ∨ i = 2 then (rd n i).b + (op i n).sshiftRight bits else (rd n i).b,
      if i = 0 then (rd n i).c + (op i n).sshiftRight bits else (rd n i).c⟩

end Trunc

end Spu.Model.Swift

import Verif.Model.Swift
import Verif.Model.Semi2kConv

set_option autoImplicit false

/-!
# SWIFT: boolean shares and conversions
(`mpc/experimental/swift/{boolean,conversion}.cc`)

The layout is that of `Model/Swift.lean` with exclusive or in place of addition:
`P0: α₁, α₂, β ^ γ`, `P1: α₁, β, γ`, `P2: α₂, β, γ`, for the value `β ^ α₁ ^ α₂`.
`AndBB` is modelled for arrays of `N` elements, because its preprocessing mixes the triples of all elements;
the other kernels are modelled for one element, and so are the circuits (`Model/Gates.lean`), for which `AndBB` is
used with `N = 1`.
-/

namespace Spu.Model.Swift
open Spu.Model.Bits (bitDeintl bitIntl)
open Spu.Model.Circ (Gates enforce singleBit addBB)
open Spu.Model.Semi2kConv (wordWidth bitrev)

variable {w : ℕ}

/-- `B2P::proc` (`boolean.cc:47-82`) -/
def b2p (H : HashFn) (x : Fin 3 → Shr (BitVec w)) (u : BitVec w) : M (Fin 3 → BitVec w) := do
  let be ← jmp H 1 2 0 (beOf x u)
  let al1 ← jmp H 0 1 2 (al1Of x u)
  let al2 ← jmp H 2 0 1 (al2Of x u)
  return fun i => be i ^^^ al1 i ^^^ al2 i

/-! ### Local kernels; `nb` is the number of valid bits (`BShrTy`) -/

/-- a boolean share of one element at the three parties -/
structure BSh (w : ℕ) where
  nb : ℕ
  sh : Fin 3 → Shr (BitVec w)

/-- the same word operation on every component -/
def mapS (f : BitVec w → BitVec w) (x : Fin 3 → Shr (BitVec w)) : Fin 3 → Shr (BitVec w) := fun i =>
  ⟨f (x i).a, f (x i).b, f (x i).c⟩

/-- `P2B::proc` (`boolean.cc:106-133`) -/
def p2b (p : BitVec w) : BSh w := ⟨wordWidth p, fun i => ⟨0, if i = 0 then 0 else p, if i = 0 then p else 0⟩⟩

/-- `XorBP::proc` (`boolean.cc:135-163`) -/
def xorBP (x : BSh w) (p : BitVec w) : BSh w :=
  ⟨max x.nb (wordWidth p), fun i =>
    ⟨(x.sh i).a, if i = 1 ∨ i = 2 then (x.sh i).b ^^^ p else (x.sh i).b, if i = 0 then (x.sh i).c ^^^ p else (x.sh i).c⟩⟩

/-- `XorBB::proc` (`boolean.cc:165-188`) -/
def xorBB (x y : BSh w) : BSh w :=
  ⟨max x.nb y.nb, fun i => ⟨(x.sh i).a ^^^ (y.sh i).a, (x.sh i).b ^^^ (y.sh i).b, (x.sh i).c ^^^ (y.sh i).c⟩⟩

/-- `AndBP::proc` (`boolean.cc:190-212`) -/
def andBP (x : BSh w) (p : BitVec w) : BSh w := ⟨min x.nb (wordWidth p), mapS (· &&& p) x.sh⟩

/-- `LShiftB::proc` (`boolean.cc:771-794`); shifts by the width are undefined -/
def lshiftB (x : BSh w) (s : ℕ) : Option (BSh w) := if s < w then some ⟨min (x.nb + s) w, mapS (· <<< s) x.sh⟩ else none

/-- `RShiftB::proc` (`boolean.cc:796-820`) -/
def rshiftB (x : BSh w) (s : ℕ) : Option (BSh w) :=
  if s < w ∧ x.nb ≤ w then some ⟨x.nb - min x.nb s, mapS (· >>> s) x.sh⟩ else none

/-- `ARShiftB::proc` (`boolean.cc:822-844`) -/
def arshiftB (x : BSh w) (s : ℕ) : Option (BSh w) := if s < w then some ⟨w, mapS (·.sshiftRight s) x.sh⟩ else none

/-- a word operation that may fail, on every component -/
def mapSO (f : BitVec w → Option (BitVec w)) (x : Fin 3 → Shr (BitVec w)) : Option (Fin 3 → Shr (BitVec w)) :=
  if ∀ i, (f (x i).a).isSome ∧ (f (x i).b).isSome ∧ (f (x i).c).isSome then some (mapS (fun v => (f v).getD 0) x) else none

/-- `BitrevB::proc` (`boolean.cc:846-869`) -/
def bitrevB (x : BSh w) (start stop : ℕ) : Option (BSh w) :=
  if start ≤ stop ∧ stop ≤ w then (mapSO (fun v => bitrev v start stop) x.sh).map fun s => ⟨max x.nb stop, s⟩ else none

/-- `BitIntlB::proc` (`boolean.cc:871-894`) -/
def bitintlB (x : BSh w) (stride : ℕ) : Option (BSh w) :=
  if singleBit x.nb then (mapSO (fun v => bitIntl v stride x.nb) x.sh).map fun s => ⟨x.nb, s⟩ else none

/-- `BitDeintlB::proc` (`boolean.cc:896-919`) -/
def bitdeintlB (x : BSh w) (stride : ℕ) : Option (BSh w) :=
  if singleBit x.nb then (mapSO (fun v => bitDeintl v stride x.nb) x.sh).map fun s => ⟨x.nb, s⟩ else none

/-! ### `AndBB` -/

/-- `RSS_B2P` (`boolean.cc:245-272`) -/
def rssOpenB (x : Rss (BitVec w)) : Fin 3 → BitVec w := fun i => (x i).1 ^^^ (x i).2 ^^^ rotate (fun j => (x j).2) i

/-- `XorBB` on replicated shares -/
def rssXor (x y : Rss (BitVec w)) : Rss (BitVec w) := rssZip (· ^^^ ·) x y

/-- `AndBP` on a replicated share; party `i` uses the value it has opened -/
def rssAndP (x : Rss (BitVec w)) (p : Fin 3 → BitVec w) : Rss (BitVec w) := fun i => ((x i).1 &&& p i, (x i).2 &&& p i)

/-- `RSS_XorBP` (`boolean.cc:274-307`) -/
def rssXorP (x : Rss (BitVec w)) (p : Fin 3 → BitVec w) : Rss (BitVec w) := fun i =>
  (if i = 1 then (x i).1 ^^^ p i else (x i).1, if i = 0 then (x i).2 ^^^ p i else (x i).2)

/-- `RssAnd_semi` (`boolean.cc:309-353`) -/
def rssAnd (x y : Rss (BitVec w)) (r0 r1 : Fin 3 → BitVec w) : Rss (BitVec w) :=
  let z : Fin 3 → BitVec w := fun i =>
    ((x i).1 &&& (y i).1) ^^^ ((x i).1 &&& (y i).2) ^^^ ((x i).2 &&& (y i).1) ^^^ (r0 i ^^^ r1 i)
  fun i => (z i, rotate z i)

/-- a multiplication triple -/
structure Tri (w : ℕ) where
  a : Rss (BitVec w)
  b : Rss (BitVec w)
  c : Rss (BitVec w)

/-- what `AndPre` draws -/
structure AndRand (w : ℕ) where
  a0 : ℕ → Fin 3 → BitVec w
  a1 : ℕ → Fin 3 → BitVec w
  b0 : ℕ → Fin 3 → BitVec w
  b1 : ℕ → Fin 3 → BitVec w
  c0 : ℕ → Fin 3 → BitVec w
  c1 : ℕ → Fin 3 → BitVec w
  /-- the public words of `permute` -/
  idx : ℕ → BitVec w

/-- one swap of `permute` (`boolean.cc:379-415`) among `m` triples -/
def permStep (m : ℕ) (idx : ℕ → BitVec w) (t : ℕ → Tri w) (j : ℕ) : ℕ → Tri w :=
  let i := (idx j).toNat % (m - j) + j
  fun n => if n = j then t i else if n = i then t j else t n

/-- `permute` (`boolean.cc:361-417`) -/
def permute (m : ℕ) (idx : ℕ → BitVec w) (t : ℕ → Tri w) : ℕ → Tri w := (List.range m).foldl (permStep m idx) t

/-- `verifyByOpen` (`boolean.cc:421-432`) at every party -/
def verifyByOpen (t : Tri w) : Prop := ∀ i, rssOpenB t.c i = rssOpenB t.a i &&& rssOpenB t.b i

instance (t : Tri w) : Decidable (verifyByOpen t) := by unfold verifyByOpen; infer_instance

/-- `verifyByOther` (`boolean.cc:436-475`) at every party -/
def verifyByOther (x t : Tri w) : Prop :=
  let rho := rssOpenB (rssXor x.a t.a)
  let sigma := rssOpenB (rssXor x.b t.b)
  let res := rssXor (rssXor (rssXor x.c t.c) (rssAndP t.a sigma)) (rssAndP t.b rho)
  let res := rssXorP res (fun i => rho i &&& sigma i)
  (∀ i, rho i = rotate rho i) ∧ (∀ i, sigma i = rotate sigma i) ∧
    ∀ i, rotate (fun j => (res j).2) i = (res i).1 ^^^ (res i).2

instance (x t : Tri w) : Decidable (verifyByOther x t) := by unfold verifyByOther; infer_instance

/-- element `n` of an array of replicated shares -/
def rssAt {N : ℕ} (x : Rss (Fin N → BitVec w)) (n : Fin N) : Rss (BitVec w) := fun i => ((x i).1 n, (x i).2 n)

/-- the triples of `AndPre`, after `permute` -/
def andTriples (N : ℕ) (D : AndRand w) : ℕ → Tri w :=
  permute (N * 3 + 3) D.idx fun n =>
    ⟨rssRand (D.a0 n) (D.a1 n), rssRand (D.b0 n) (D.b1 n),
      rssAnd (rssRand (D.a0 n) (D.a1 n)) (rssRand (D.b0 n) (D.b1 n)) (D.c0 n) (D.c1 n)⟩

/-- the end of `AndPre` (`boolean.cc:585-598`): the product of one element from one triple -/
def consume (t : Tri w) (x y : Rss (BitVec w)) : Rss (BitVec w) :=
  let xa := rssOpenB (rssXor x t.a)
  let yb := rssOpenB (rssXor y t.b)
  rssXorP (rssXor (rssXor t.c (rssAndP y xa)) (rssAndP x yb)) (fun i => xa i &&& yb i)

/-- `AndPre` (`boolean.cc:480-599`): `OPEN_SIZE = BUCKET_SIZE = 3` -/
def andPre (N : ℕ) (D : AndRand w) (x y : Rss (Fin N → BitVec w)) : Option (Rss (Fin N → BitVec w)) :=
  let t := andTriples N D
  if (∀ n : Fin 3, verifyByOpen (t n)) ∧
      ∀ j : Fin N, verifyByOther (t (3 + j * 3)) (t (3 + j * 3 + 1)) ∧ verifyByOther (t (3 + j * 3)) (t (3 + j * 3 + 2)) then
    some fun i => (fun j => (consume (t (3 + j * 3)) (rssAt x j) (rssAt y j) i).1,
      fun j => (consume (t (3 + j * 3)) (rssAt x j) (rssAt y j) i).2)
  else none

/-- `AndBB::proc` (`boolean.cc:601-769`) -/
def andBB (H : HashFn) (N : ℕ) (D : AndRand w) (x y : Fin 3 → Shr (Fin N → BitVec w)) (r0 r1 : Fin 3 → Fin N → BitVec w)
    (u : Fin N → BitVec w) : M (Fin 3 → Shr (Fin N → BitVec w)) := do
  let az1 : Fin 3 → Fin N → BitVec w := ![r1 0, r0 1, u]
  let az2 : Fin 3 → Fin N → BitVec w := ![r0 0, u, r1 2]
  let gz : Fin 3 → Fin N → BitVec w := ![u, r1 1, r0 2]
  let d : Rss (Fin N → BitVec w) := ![((x 0).b, (x 0).a), ((x 1).a, (x 1).c), ((x 2).c, (x 2).a)]
  let e : Rss (Fin N → BitVec w) := ![((y 0).b, (y 0).a), ((y 1).a, (y 1).c), ((y 2).c, (y 2).a)]
  let f ← (StateT.lift (andPre N D d e) : M (Rss (Fin N → BitVec w)))
  let chi1 : Fin 3 → Fin N → BitVec w := ![(f 0).2, (f 1).1, u]
  let chi2 : Fin 3 → Fin N → BitVec w := ![(f 0).1, u, (f 2).2]
  let phi : Fin 3 → Fin N → BitVec w := ![u, fun n => (f 1).2 n ^^^ ((x 1).c n &&& (y 1).c n),
    fun n => (f 2).1 n ^^^ ((x 2).c n &&& (y 2).c n)]
  let bs1 : Fin 3 → Fin N → BitVec w := ![
    fun n => ((x 0).c n &&& (y 0).a n) ^^^ ((y 0).c n &&& (x 0).a n) ^^^ az1 0 n ^^^ chi1 0 n,
    fun n => (((x 1).b n ^^^ (x 1).c n) &&& (y 1).a n) ^^^ (((y 1).b n ^^^ (y 1).c n) &&& (x 1).a n) ^^^ az1 1 n ^^^ chi1 1 n, u]
  let bs2 : Fin 3 → Fin N → BitVec w := ![
    fun n => ((x 0).c n &&& (y 0).b n) ^^^ ((y 0).c n &&& (x 0).b n) ^^^ az2 0 n ^^^ chi2 0 n, u,
    fun n => (((x 2).b n ^^^ (x 2).c n) &&& (y 2).a n) ^^^ (((y 2).b n ^^^ (y 2).c n) &&& (x 2).a n) ^^^ az2 2 n ^^^ chi2 2 n]
  let bs1 ← jmp H 0 1 2 bs1
  let bs2 ← jmp H 0 2 1 bs2
  let be : Fin 3 → Fin N → BitVec w := fun i n => bs1 i n ^^^ bs2 i n ^^^ ((x i).b n &&& (y i).b n) ^^^ phi i n
  let bg : Fin 3 → Fin N → BitVec w := ![u, fun n => be 1 n ^^^ gz 1 n, fun n => be 2 n ^^^ gz 2 n]
  let bg ← jmp H 1 2 0 bg
  return ![⟨az1 0, az2 0, bg 0⟩, ⟨az1 1, be 1, gz 1⟩, ⟨az2 2, be 2, gz 2⟩]

/-! ### Conversions -/

/-- the draws of one `AndBB` -/
structure AndIn (w : ℕ) where
  D : AndRand w
  r0 : Fin 3 → Fin 1 → BitVec w
  r1 : Fin 3 → Fin 1 → BitVec w
  u : BitVec w

/-- an element as an array of one element -/
def up (x : Fin 3 → Shr (BitVec w)) : Fin 3 → Shr (Fin 1 → BitVec w) := fun i => ⟨fun _ => (x i).a, fun _ => (x i).b, fun _ => (x i).c⟩
@[inherit_doc up] def down (x : Fin 3 → Shr (Fin 1 → BitVec w)) : Fin 3 → Shr (BitVec w) := fun i =>
  ⟨(x i).a 0, (x i).b 0, (x i).c 0⟩

/-- state of the circuits: number of `AndBB` so far, and whether an inconsistency has been reported -/
abbrev St := ℕ × Bool

/-- `and_bb` in a circuit; `E` lists the draws of the successive calls -/
def andG (H : HashFn) (E : ℕ → AndIn w) (x y : BSh w) : Circ.M St (BSh w) := fun s =>
  ((andBB H 1 (E s.1).D (up x.sh) (up y.sh) (E s.1).r0 (E s.1).r1 (fun _ => (E s.1).u)).run s.2).map fun z =>
    (⟨min x.nb y.nb, down z.1⟩, (s.1 + 1, z.2))

/-- the boolean-share API of SWIFT -/
def gatesW (H : HashFn) (E : ℕ → AndIn w) : Gates St (BSh w) w where
  nb := BSh.nb
  xorBB x y := pure (xorBB x y)
  andBB := andG H E
  andBP x p := pure (andBP x p)
  lshift x s := StateT.lift (lshiftB x s)
  rshift x s := StateT.lift (rshiftB x s)
  bitdeintl x s := StateT.lift (bitdeintlB x s)
  bitintl x s := StateT.lift (bitintlB x s)

/-- `A2B::proc` (`conversion.cc:46-136`) -/
def a2b (H : HashFn) (E : ℕ → AndIn w) (x : Fin 3 → Shr (BitVec w)) : Circ.M St (BSh w) := do
  let v0 : BSh w := ⟨w, ![⟨0, 0, 0⟩, ⟨0, (x 1).b, (x 1).b⟩, ⟨0, (x 2).b, (x 2).b⟩]⟩
  let v1 : BSh w := ⟨w, ![⟨-(x 0).a, 0, 0⟩, ⟨-(x 1).a, 0, 0⟩, ⟨0, 0, 0⟩]⟩
  let v2 : BSh w := ⟨w, ![⟨0, -(x 0).b, 0⟩, ⟨0, 0, 0⟩, ⟨-(x 2).a, 0, 0⟩]⟩
  let r ← addBB (gatesW H E) v0 v1
  let r ← addBB (gatesW H E) r v2
  return ⟨w, r.sh⟩

/-- `MsbA2B::proc` (`conversion.cc:138-150`) -/
def msbA2B (H : HashFn) (E : ℕ → AndIn w) (x : Fin 3 → Shr (BitVec w)) : Circ.M St (BSh w) := do
  let b ← a2b H E x
  let r ← (StateT.lift (rshiftB b (w - 1)) : Circ.M St (BSh w))
  return ⟨w, r.sh⟩

/-- the draws of one `MulAA` -/
structure MulIn (w : ℕ) where
  ch : BitVec w
  D : PreRand (BitVec (2 * w)) (BitVec (2 * w)) (BitVec (2 * w))
  r0 : Fin 3 → BitVec w
  r1 : Fin 3 → BitVec w

/-- the draws for one bit of `B2A`: the masks of three joint sharings and two products -/
structure BitIn (w : ℕ) where
  j1 : BitVec w
  j2 : BitVec w
  j3 : BitVec w
  m1 : MulIn w
  m2 : MulIn w

/-- one bit of `B2A` (`conversion.cc:197-264`) -/
def bit2A (H : HashFn) (B : BitIn w) (x : Fin 3 → Shr (BitVec w)) (q : ℕ) (u : BitVec w) : M (Fin 3 → Shr (BitVec w)) := do
  let b : Fin 3 → Shr (BitVec w) := mapS (fun v => (v >>> q) &&& 1) x
  let a1 ← (StateT.lift (jointSharing 0 1 (al1Of b u) B.j1) : M (Fin 3 → Shr (BitVec w)))
  let a2 ← (StateT.lift (jointSharing 0 2 (al2Of b u) B.j2) : M (Fin 3 → Shr (BitVec w)))
  let be ← (StateT.lift (jointSharing 1 2 (beOf b u) B.j3) : M (Fin 3 → Shr (BitVec w)))
  let t ← mulAA H B.m1.ch B.m1.D a1 a2 B.m1.r0 B.m1.r1 u
  let al := addAA (addAA (addAA a1 a2) (negateA t)) (negateA t)
  let t ← mulAA H B.m2.ch B.m2.D be al B.m2.r0 B.m2.r1 u
  return addAA (addAA (addAA al be) (negateA t)) (negateA t)

/-- `B2A::proc` (`conversion.cc:162-293`) -/
def b2a (H : HashFn) (B : ℕ → BitIn w) (x : BSh w) (u : BitVec w) : M (Fin 3 → Shr (BitVec w)) :=
  if x.nb ≤ w then
    if x.nb = 0 then pure fun _ => ⟨0, 0, 0⟩
    else (List.range x.nb).foldlM (fun acc q => do
      let z ← bit2A H (B q) x.sh q u
      return addAA acc (mapS (· <<< q) z)) (fun _ => ⟨0, 0, 0⟩)
  else failure

end Spu.Model.Swift

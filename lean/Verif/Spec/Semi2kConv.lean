import Verif.Spec.Gates
import Verif.Spec.Share
import Verif.Model.Semi2kConv

set_option autoImplicit false

/-!
# Specification of semi2k boolean shares and of the randomness the conversions consume
-/

namespace Spu.Spec
open Spu.Model.Circ Spu.Model.Bits Spu.Model.Semi2kConv

/-- `a` is a boolean sharing of `x` with a sound declared bit count -/
def BRep {n w : ℕ} (a : BShr n w) (x : BitVec w) : Prop :=
  xorAll a.sh = x ∧ x.toNat < 2 ^ a.nb ∧ a.nb ≤ w

/-- the randomness is what the protocols assume: PRSS words of neighbours and public words agree (C30),
dealt correlations are valid (C21) -/
structure EnvOk {σ : Type} {n w : ℕ} [NeZero n] (E : Env σ n w) (Inv : σ → Prop) : Prop where
  prss : Ok Inv E.prss (fun r => ∀ i, r.2 i = r.1 (i + 1))
  priv : Ok Inv E.priv (fun _ => True)
  publ : Ok Inv E.publ (fun p => ∀ i j, p i = p j)
  andT : ∀ v, Ok Inv (E.andT v) (fun t => xorAll t.2.2 = xorAll t.1 &&& xorAll t.2.1)
  randBits : ∀ k, Ok Inv (E.randBits k) (fun r => ∀ j, j < k → total (r j) = 0 ∨ total (r j) = 1)
  eqz : Ok Inv E.eqz (fun r => total r.1 = xorAll r.2)

/-- reversal of the bits `start..stop-1`, other bits unchanged -/
def revIdx (start stop i : ℕ) : ℕ := if start ≤ i ∧ i < stop then start + (stop - 1 - i) else i

/-- What a call does to the plain values of the registers.  A register is its plain value and its
declared bit count; only the interleavings look at the count, and any new count is allowed here. -/
inductive BSem {w : ℕ} (vals : List (BitVec w × ℕ)) : BOp w → BitVec w → Prop
  | p2b {p np} : BSem vals (.p2b p np) p
  | rand {b : Bool} : BSem vals .rand (BitVec.ofNat w b.toNat)
  | cast {i j x N} : vals[i]? = some (x, N) → BSem vals (.cast i j) x
  | xorBB {i j x y N N'} : vals[i]? = some (x, N) → vals[j]? = some (y, N') → BSem vals (.xorBB i j) (x ^^^ y)
  | xorBP {i p np x N} : vals[i]? = some (x, N) → BSem vals (.xorBP i p np) (x ^^^ p)
  | andBB {i j x y N N'} : vals[i]? = some (x, N) → vals[j]? = some (y, N') → BSem vals (.andBB i j) (x &&& y)
  | andBP {i p np x N} : vals[i]? = some (x, N) → BSem vals (.andBP i p np) (x &&& p)
  | lshift {i k x N} : vals[i]? = some (x, N) → BSem vals (.lshift i k) (x <<< k)
  | rshift {i k x N} : vals[i]? = some (x, N) → BSem vals (.rshift i k) (x >>> k)
  | lshiftv {i m k x N} : vals[i]? = some (x, N) → BSem vals (.lshiftv i m k) (x <<< k)
  | rshiftv {i m k x N} : vals[i]? = some (x, N) → BSem vals (.rshiftv i m k) (x >>> k)
  | arshift {i k x N} : vals[i]? = some (x, N) → BSem vals (.arshift i k) (x.sshiftRight k)
  | bitrev {i s e x r N} : vals[i]? = some (x, N) → (∀ q, q < w → r.getLsbD q = x.getLsbD (revIdx s e q)) →
      BSem vals (.bitrev i s e) r
  | intl {i s N x r} : vals[i]? = some (x, N) → bitIntl x s N = some r → BSem vals (.intl i s) r
  | deintl {i s N x r} : vals[i]? = some (x, N) → bitDeintl x s N = some r → BSem vals (.deintl i s) r

/-- plain values of all registers after a program -/
inductive BTrace {w : ℕ} : List (BOp w) → List (BitVec w × ℕ) → Prop
  | nil : BTrace [] []
  | snoc {ops op vals v N} : BTrace ops vals → BSem vals op v → BTrace (ops ++ [op]) (vals ++ [(v, N)])

/-- public operands come with a bit count that covers them and that a type can declare; the amount of one
element is between the smallest and the largest amount of the array -/
def BOp.Valid {w : ℕ} : BOp w → Prop
  | .p2b p np => p.toNat < 2 ^ np ∧ np ≤ w
  | .xorBP _ p np => p.toNat < 2 ^ np ∧ np ≤ w
  | .andBP _ p np => p.toNat < 2 ^ np ∧ np ≤ w
  | .lshiftv _ m k => k ≤ m
  | .rshiftv _ m k => m ≤ k
  | _ => True

end Spu.Spec

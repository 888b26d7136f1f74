import Verif.Spec.Gates
import Verif.Spec.Share
import Verif.Model.SnnKernels

set_option autoImplicit false

/-!
# Specification of SecureNN programs
-/

namespace Spu.Spec
open Spu.Model.SnnK

/-- the generators of neighbours are in step -/
def InStep (s : Sys) : Prop := ∀ i, s.next i = s.own (i + 1)

/-- `s` is a SecureNN sharing of `x`: rank 2 holds zero -/
def SnnRep {w : ℕ} (s : Fin 3 → BitVec w) (x : BitVec w) : Prop := s 0 + s 1 = x ∧ s 2 = 0

/-- What a call does to the plain values of the registers.  A truncated value within a quarter of the ring is rounded down
or up. -/
inductive SnnSem {w : ℕ} (vals : List (BitVec w)) : AOp w → BitVec w → Prop
  | v2a {o x} : SnnSem vals (.v2a o x) x
  | p2a {p} : SnnSem vals (.p2a p) p
  | neg {i x} : vals[i]? = some x → SnnSem vals (.neg i) (-x)
  | addAA {i j x y} : vals[i]? = some x → vals[j]? = some y → SnnSem vals (.addAA i j) (x + y)
  | addAP {i p x} : vals[i]? = some x → SnnSem vals (.addAP i p) (x + p)
  | mulAA {i j x y} : vals[i]? = some x → vals[j]? = some y → SnnSem vals (.mulAA i j) (x * y)
  | mulAP {i p x} : vals[i]? = some x → SnnSem vals (.mulAP i p) (x * p)
  | lshift {i k x} : vals[i]? = some x → SnnSem vals (.lshift i k) (x * BitVec.ofNat w (2 ^ k))
  | trunc {i m x v} : vals[i]? = some x →
      (-2 ^ (w - 2) ≤ x.toInt → x.toInt < 2 ^ (w - 2) → m ≤ w - 2 →
        v = BitVec.ofInt w (x.toInt / 2 ^ m) ∨ v = BitVec.ofInt w (x.toInt / 2 ^ m + 1)) →
      SnnSem vals (.trunc i m) v

/-- plain values of all registers after a program -/
inductive SnnTrace {w : ℕ} : List (AOp w) → List (BitVec w) → Prop
  | nil : SnnTrace [] []
  | snoc {ops op vals v} : SnnTrace ops vals → SnnSem vals op v → SnnTrace (ops ++ [op]) (vals ++ [v])

/-- the registers a call reads, which have to be written already -/
def SnnReads {w : ℕ} (n : ℕ) : AOp w → Prop
  | .v2a _ _ | .p2a _ => True
  | .neg i | .addAP i _ | .mulAP i _ | .lshift i _ | .trunc i _ => i < n
  | .addAA i j | .mulAA i j => i < n ∧ j < n

end Spu.Spec

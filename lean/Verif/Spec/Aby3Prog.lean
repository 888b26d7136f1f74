import Verif.Model.Aby3Prog
import Verif.Spec.Aby3Bool
import Verif.Spec.Semi2kConv

set_option autoImplicit false

/-!
# Meaning of aby3 programs on plain values
-/

namespace Spu.Spec
open Spu.Model.Aby3
open Spu.Model.Semi2kConv (BOp)

/-- plain value of a register; a boolean register has a declared bit count -/
inductive PVal (w : ℕ)
  | arith (x : BitVec w)
  | bool (x : BitVec w) (nb : ℕ)

/-- value and count, for the boolean operations -/
def PVal.pair {w : ℕ} : PVal w → BitVec w × ℕ
  | .arith x => (x, w)
  | .bool x nb => (x, nb)

/-- what one call computes -/
inductive Sem3 {w : ℕ} (vals : List (PVal w)) : Op3 w → PVal w → Prop
  | p2a {p} : Sem3 vals (.p2a p) (.arith p)
  | randA {x} : Sem3 vals .randA (.arith x)
  | neg {i x} : vals[i]? = some (.arith x) → Sem3 vals (.neg i) (.arith (-x))
  | addAP {i x p} : vals[i]? = some (.arith x) → Sem3 vals (.addAP i p) (.arith (x + p))
  | addAA {i j x y} : vals[i]? = some (.arith x) → vals[j]? = some (.arith y) → Sem3 vals (.addAA i j) (.arith (x + y))
  | mulAP {i x p} : vals[i]? = some (.arith x) → Sem3 vals (.mulAP i p) (.arith (x * p))
  | mulAA {i j x y} : vals[i]? = some (.arith x) → vals[j]? = some (.arith y) → Sem3 vals (.mulAA i j) (.arith (x * y))
  | mulA1B {i j x b N} : vals[i]? = some (.arith x) → vals[j]? = some (.bool b N) →
      Sem3 vals (.mulA1B i j) (.arith (x * b))
  | lshiftA {i x k} : vals[i]? = some (.arith x) → Sem3 vals (.lshiftA i k) (.arith (x <<< k))
  | a2b {i x N} : vals[i]? = some (.arith x) → Sem3 vals (.a2b i) (.bool x N)
  | msb {i x N} : vals[i]? = some (.arith x) → Sem3 vals (.msb i) (.bool (if x.toInt < 0 then 1 else 0) N)
  | b2a {i x N} : vals[i]? = some (.bool x N) → Sem3 vals (.b2a i) (.arith x)
  | eqAA {i j x y N} : vals[i]? = some (.arith x) → vals[j]? = some (.arith y) →
      Sem3 vals (.eqAA i j) (.bool (if x = y then 1 else 0) N)
  | eqAP {i x p N} : vals[i]? = some (.arith x) → Sem3 vals (.eqAP i p) (.bool (if x = p then 1 else 0) N)
  | bool {op v N} : BSem (vals.map PVal.pair) op v → Sem3 vals (.bool op) (.bool v N)

/-- plain values of all registers after a program -/
inductive Trace3 {w : ℕ} : List (Op3 w) → List (PVal w) → Prop
  | nil : Trace3 [] []
  | snoc {ops op vals v} : Trace3 ops vals → Sem3 vals op v → Trace3 (ops ++ [op]) (vals ++ [v])

/-- public boolean operands come with a bit count that covers them; bit reversal ends inside the ring -/
def Op3.Valid {w : ℕ} : Op3 w → Prop
  | .bool (.bitrev _ _ e) => e ≤ w
  | .bool op => BOp.Valid op
  | _ => True

/-- register `r` is a sharing of `v`; a boolean value is below `2 ^ (declared count)` -/
def RegRep3 {w : ℕ} : Reg3 w → PVal w → Prop
  | .arith x, .arith X => Opens x X
  | .bool a, .bool X N => BRep3 a X ∧ a.nb = N
  | _, _ => False

end Spu.Spec

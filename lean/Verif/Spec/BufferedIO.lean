import Verif.Model.BufferedIO

set_option autoImplicit false

/-!
# A byte stream in each direction
-/

namespace Spu.Spec
open Spu.Model.BufferedIO

/-- what a party may do -/
inductive IoOp
  | send (p : Fin 2) (d : List Byte)
  | flush (p : Fin 2)
  | recv (p : Fin 2) (len : ℕ)

/-- what each party has sent, what the other could read without waiting, and what each has received -/
structure Trace where
  sent : Fin 2 → List Byte
  pushed : Fin 2 → List Byte
  got : Fin 2 → List Byte

/-- the ideal streams: sending appends, a flush or a receive pushes everything the party sent, and a receive takes the next bytes of the other's stream,
waiting if they were not pushed -/
inductive IoStep (s : Trace) : IoOp → Trace → Prop
  | send (p : Fin 2) (d push : List Byte) (h1 : s.pushed p <+: push) (h2 : push <+: s.sent p ++ d) :
      IoStep s (.send p d) { s with sent := fun k => if k = p then s.sent k ++ d else s.sent k, pushed := fun k => if k = p then push else s.pushed k }
  | flush (p : Fin 2) : IoStep s (.flush p) { s with pushed := fun k => if k = p then s.sent k else s.pushed k }
  | recv (p : Fin 2) (len : ℕ) (h : (s.got p).length + len ≤ (s.pushed (1 - p)).length) :
      IoStep s (.recv p len) { s with
        pushed := fun k => if k = p then s.sent k else s.pushed k
        got := fun k => if k = p then (s.pushed (1 - p)).take ((s.got p).length + len) else s.got k }

/-- everything that `p` sends in a schedule -/
def sentBy (p : Fin 2) : List IoOp → List Byte
  | [] => []
  | .send q d :: ops => (if q = p then d else []) ++ sentBy p ops
  | _ :: ops => sentBy p ops

/-- the program on a schedule; `got` collects what each party receives -/
def ioExec (cap : ℕ) : List IoOp → Net → (Fin 2 → List Byte) → Option ((Fin 2 → List Byte) × Net)
  | [], s, got => some (got, s)
  | .send p d :: ops, s, got => (sendData cap p (d.length + 1) d s).bind fun s => ioExec cap ops s got
  | .flush p :: ops, s, got => ioExec cap ops (Spu.Model.BufferedIO.flush p s) got
  | .recv p len :: ops, s, got => (recvData p ((s.queue (1 - p)).length + 1) len s).bind fun r => ioExec cap ops r.2 fun k => if k = p then got k ++ r.1 else got k

end Spu.Spec

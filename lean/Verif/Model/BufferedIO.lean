import Mathlib.Data.List.Basic
import Mathlib.Data.Fin.Basic

set_option autoImplicit false

/-!
# Model of `BufferedIO` (`mpc/cheetah/ot/yacl/ferret.cc:34-122`)

Two parties, each with a buffer of bytes to send and the last message received, and a queue of messages in each direction.
The link is taken to be reliable and in order, as `Communicator` numbers its messages.  The used part of `send_buffer_` is a list; `memcpy` to its end appends,
and a copy beyond its size is `none`.  A receiver that waits is `none` as well.  The recursions of `send_data` and `recv_data` are counted by `fuel`.
`int` lengths do not overflow.
-/

namespace Spu.Model.BufferedIO

abbrev Byte := BitVec 8

structure Side where
  sendBuf : List Byte
  recvBuf : List Byte
  recvUsed : ℕ

/-- `queue p` are the messages sent by `p` and not yet received -/
structure Net where
  side : Fin 2 → Side
  queue : Fin 2 → List (List Byte)

def Net.setSide (s : Net) (p : Fin 2) (x : Side) : Net := { s with side := fun k => if k = p then x else s.side k }

def Net.setQueue (s : Net) (p : Fin 2) (x : List (List Byte)) : Net := { s with queue := fun k => if k = p then x else s.queue k }

/-- `BufferedIO(conn)` — ferret.cc:49-56 -/
def start : Net := ⟨fun _ => ⟨[], [], 0⟩, fun _ => []⟩

/-- `flush` — ferret.cc:66-78 -/
def flush (p : Fin 2) (s : Net) : Net :=
  if (s.side p).sendBuf.length = 0 then s
  else (s.setQueue p (s.queue p ++ [(s.side p).sendBuf])).setSide p { s.side p with sendBuf := [] }

/-- `memcpy` to the end of the used part of `send_buffer_` -/
def append (cap : ℕ) (p : Fin 2) (d : List Byte) (s : Net) : Option Net :=
  if (s.side p).sendBuf.length + d.length ≤ cap then some (s.setSide p { s.side p with sendBuf := (s.side p).sendBuf ++ d }) else none

/-- `send_data` — ferret.cc:86-100; `cap` is `SEND_BUFFER_SIZE` -/
def sendData (cap : ℕ) (p : Fin 2) : ℕ → List Byte → Net → Option Net
  | 0, _, _ => none
  | fuel + 1, d, s =>
    let left := cap - (s.side p).sendBuf.length
    if left ≤ d.length then (append cap p (d.take left) s).bind fun s => sendData cap p fuel (d.drop left) (flush p s)
    else append cap p d s

/-- `fill_recv` — ferret.cc:80-84 -/
def fillRecv (p : Fin 2) (s : Net) : Option Net :=
  match s.queue (1 - p) with
  | [] => none
  | x :: xs => some ((s.setQueue (1 - p) xs).setSide p { s.side p with recvBuf := x, recvUsed := 0 })

/-- `recv_data` — ferret.cc:102-121; the bytes received -/
def recvData (p : Fin 2) : ℕ → ℕ → Net → Option (List Byte × Net)
  | 0, _, _ => none
  | fuel + 1, len, s =>
    let s := if 0 < (s.side p).sendBuf.length then flush p s else s
    let left := (s.side p).recvBuf.length - (s.side p).recvUsed
    if len ≤ left then
      some (((s.side p).recvBuf.drop (s.side p).recvUsed).take len, s.setSide p { s.side p with recvUsed := (s.side p).recvUsed + len })
    else
      (fillRecv p s).bind fun t => (recvData p fuel (len - left) t).map fun r =>
        ((if (s.side p).recvBuf.length ≠ 0 then ((s.side p).recvBuf.drop (s.side p).recvUsed).take left else []) ++ r.1, r.2)

end Spu.Model.BufferedIO

import Mathlib.Data.List.Basic
import Mathlib.Tactic.Ring

/-!
The TTP dealer's streamed responses: server side framing and client side `ProgressiveReader`.
-/

set_option autoImplicit false

namespace Spu.Model.Stream

abbrev Byte := UInt8

/-- outcome of a C++ call: undefined behaviour (out-of-bounds memory access, non-termination),
a reported error, or a result -/
inductive Out (α : Type) where
  | ub
  | fail
  | ok (a : α)
  deriving DecidableEq

def Out.bind {α β : Type} (x : Out α) (f : α → Out β) : Out β :=
  match x with
  | .ub => .ub
  | .fail => .fail
  | .ok a => f a

/-- `memcpy(&x, bytes, 8)` of an `int64_t` on a little-endian machine
(mpc/semi2k/beaver/beaver_impl/ttp_server/beaver_server.cc:206,217) -/
def encSize (v : ℕ) : List Byte := (List.range 8).map fun i => UInt8.ofNat (v / 256 ^ i)

/-- the inverse memcpy (beaver_ttp.cc:219), the result being converted to `size_t` -/
def decSize (l : List Byte) : ℕ := l.foldr (fun b a => b.toNat + 256 * a) 0

/-- one wire frame: flag byte 0, payload size, payload (beaver_server.cc:214–223) -/
def frame (payload : List Byte) : List Byte := 0 :: encSize payload.length ++ payload

/-- the pieces a buffer is cut into (beaver_server.cc:212–225); `C` is `kReplayChunkSize` -/
def pieces (C : ℕ) (hC : 0 < C) (data : List Byte) : List (List Byte) :=
  if h : data = [] then [] else data.take C :: pieces C hC (data.drop C)
termination_by data.length
decreasing_by
  have : 0 < data.length := List.length_pos_iff.mpr h
  simp only [List.length_drop]; omega

/-- `SendStreamData` (beaver_server.cc:201–227): every adjustment buffer in turn.  The padding bytes
that are not sent (`pad_length`) are not part of `adjusts` here. -/
def sendStreamData (C : ℕ) (hC : 0 < C) (adjusts : List (List Byte)) : List (List Byte) :=
  adjusts.flatMap (pieces C hC)

/-- the chunk loop of `AdjustAndSend` (beaver_server.cc:355–375): the element range is processed in
chunks of `C` bytes, and for each chunk all adjustment buffers of that chunk are sent.  `adjusts` are
the complete adjustment buffers (all of the same length); the adjustments being element-wise, a chunk
of the adjustment is the adjustment of the chunk. -/
def adjustAndSend (C : ℕ) (hC : 0 < C) (adjusts : List (List Byte)) : ℕ → List (List Byte)
  | left =>
    if h : left = 0 then []
    else sendStreamData C hC (adjusts.map (·.take C)) ++
      adjustAndSend C hC (adjusts.map (·.drop C)) (left - min left C)
termination_by left => left
decreasing_by omega

/-- what goes over the wire -/
def wire (payloads : List (List Byte)) : List Byte := payloads.flatMap frame

/-- `SendError` (beaver_server.cc:229–243) -/
def wireError (code : Byte) (msg : List Byte) : List Byte := code :: encSize msg.length ++ msg

/-- `State` (beaver_ttp.cc:284–289) -/
inductive St where
  | readFlags
  | readChunk
  | readError
  | fin
  deriving DecidableEq

/-- the fields of `ProgressiveReader` (beaver_ttp.cc:290–304), without the status/lock fields -/
structure Reader where
  st : St
  flagsPos : ℕ
  flags : List Byte
  chunkRemain : ℕ
  msg : List Byte
  bufRemain : ℕ
  idx : ℕ
  pos : ℕ
  bufs : List (List Byte)
  deriving DecidableEq

/-- constructor (beaver_ttp.cc:134–141); fresh buffers have arbitrary content, here zero -/
def Reader.init (numBuf bufLen : ℕ) : Reader :=
  ⟨.readFlags, 0, List.replicate 9 0, 0, [], bufLen * numBuf, 0, 0,
    List.replicate numBuf (List.replicate bufLen 0)⟩

/-- `memcpy(dst + pos, src, n)`: none = out of bounds -/
def memcpy (dst : List Byte) (pos : ℕ) (src : List Byte) (spos n : ℕ) : Option (List Byte) :=
  if pos + n ≤ dst.length ∧ spos + n ≤ src.length then
    some (dst.take pos ++ (src.drop spos).take n ++ dst.drop (pos + n))
  else none

/-- `copy_to_flags` (beaver_ttp.cc:212–233) -/
def copyToFlags (valid : Byte → Bool) (s : Reader) (data : List Byte) : Out (Reader × ℕ) :=
  let cp := min (s.flags.length - s.flagsPos) data.length
  match memcpy s.flags s.flagsPos data 0 cp with
  | none => .ub
  | some flags =>
    let p := s.flagsPos + cp
    if p = flags.length then
      let s1 := { s with flags := flags, flagsPos := 0, chunkRemain := decSize (flags.drop 1) }
      if flags.headD 0 = 0 then .ok ({ s1 with st := .readChunk }, cp)
      else if valid (flags.headD 0) then .ok ({ s1 with st := .readError }, cp)
      else .fail
    else .ok ({ s with flags := flags, flagsPos := p }, cp)

/-- the copy loop of `copy_to_buffer` (beaver_ttp.cc:252–267).  Note that `cp_size` is computed from
`length`, not from `length - data_pos`.  `fuel`: number of iterations, see `copyToBuffer`. -/
def copyLoop (data : List Byte) (length : ℕ) : ℕ → Reader → ℕ → Out Reader
  | 0, s, dataPos => if dataPos < length then .ub else .ok s
  | fuel + 1, s, dataPos =>
    if dataPos < length then
      match s.bufs[s.idx]? with
      | none => .fail
      | some b =>
        let cp := min length (b.length - s.pos)
        match memcpy b s.pos data dataPos cp with
        | none => .ub
        | some b' =>
          let p := s.pos + cp
          let s1 := { s with bufs := s.bufs.set s.idx b' }
          if p = b.length then copyLoop data length fuel { s1 with pos := 0, idx := s.idx + 1 } (dataPos + cp)
          else copyLoop data length fuel { s1 with pos := p } (dataPos + cp)
    else .ok s

/-- `copy_to_buffer` (beaver_ttp.cc:235–270).  Each iteration of the copy loop copies at least one
byte or moves to the next buffer, so `length + number of buffers` iterations are enough. -/
def copyToBuffer (s : Reader) (data : List Byte) : Out (Reader × ℕ) :=
  let length := min data.length s.chunkRemain
  let s := { s with chunkRemain := s.chunkRemain - length }
  let s := if s.chunkRemain = 0 then { s with st := .readFlags } else s
  if length > s.bufRemain then .fail
  else
    let s := { s with bufRemain := s.bufRemain - length }
    let s := if s.bufRemain = 0 then { s with st := .fin } else s
    (copyLoop data length (length + s.bufs.length + 1) s 0).bind fun s => .ok (s, length)

/-- `copy_to_error` (beaver_ttp.cc:272–281) -/
def copyToError (s : Reader) (data : List Byte) : Out (Reader × ℕ) :=
  let length := min data.length s.chunkRemain
  let s := { s with chunkRemain := s.chunkRemain - length }
  let s := if s.chunkRemain = 0 then { s with st := .fin } else s
  .ok ({ s with msg := s.msg ++ data.take length }, length)

/-- the loop of `OnReadOnePart` (beaver_ttp.cc:146–163); exceptions become an error status -/
def readLoop (valid : Byte → Bool) : ℕ → Reader → List Byte → Out Reader
  | 0, s, data => if data = [] then .ok s else .ub
  | fuel + 1, s, data =>
    if data = [] then .ok s
    else
      match s.st with
      | .readFlags => (copyToFlags valid s data).bind fun r => readLoop valid fuel r.1 (data.drop r.2)
      | .readChunk => (copyToBuffer s data).bind fun r => readLoop valid fuel r.1 (data.drop r.2)
      | .readError => (copyToError s data).bind fun r => readLoop valid fuel r.1 (data.drop r.2)
      | .fin => .fail

/-- `OnReadOnePart` (beaver_ttp.cc:143–175).  At most one iteration in two consumes nothing. -/
def onReadOnePart (valid : Byte → Bool) (s : Reader) (data : List Byte) : Out Reader :=
  (readLoop valid (2 * data.length + 1) s data).bind fun s =>
    if s.st = .fin ∧ s.msg ≠ [] then .fail else .ok s

/-- all parts in the order the network delivers them; reading stops at the first error
(brpc's contract for a non-OK status) -/
def readParts (valid : Byte → Bool) (s : Reader) : List (List Byte) → Out Reader
  | [] => .ok s
  | p :: ps => (onReadOnePart valid s p).bind fun s => readParts valid s ps

/-- `RpcCall`'s use of the reader (beaver_ttp.cc:359–363): construct, read everything, wait
(`OnEndOfMessage`, beaver_ttp.cc:177–193, with an OK status) and take the buffers -/
def receive (valid : Byte → Bool) (numBuf bufLen : ℕ) (parts : List (List Byte)) :
    Out (List (List Byte)) :=
  (readParts valid (Reader.init numBuf bufLen) parts).bind fun s =>
    if s.st = .fin then .ok s.bufs else .fail

end Spu.Model.Stream

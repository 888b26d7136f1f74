import Verif.Model.NdArray
import Verif.Model.Types

set_option autoImplicit false

/-!
# Model of `core/value.cc`: serialisation of values

Buffers are arrays of elements, an element is the list of its bytes; this fits `Model/NdArray.lean`.  `size_t` arithmetic is
modulo 2^64; overflow of the signed element count, and reads and writes outside a buffer, are `ub`.  Protocol buffer
messages are records; negative extents in a message are not modelled.
-/

namespace Spu.Model

/-- A failed `SPU_ENFORCE` or other exception, or undefined behaviour -/
inductive Err where
  | throw | ub
deriving DecidableEq, Repr

abbrev Bytes := List UInt8

/-- `Visibility` (`spu.h:50-57`) -/
inductive Vis where
  | invalid | secret | pub | priv
deriving DecidableEq, Repr

/-- `getVisibilityFromType` — core/value.cc:28-38; the interfaces are those in the declarations of the type classes cited in
    `Model/Types.lean` -/
def visOf : Ty.Ty → Vis
  | .void => .invalid
  | .pt _ => .invalid
  | .ring .ring _ => .invalid
  | .ring .pub2k _ => .pub
  | .gfmp .. => .invalid
  | .priv .. => .priv
  | _ => .secret

/-- `NdArrayRef`: element type, layout, buffer -/
structure NdVal where
  ty : Ty.Ty
  view : View
  buf : Array Bytes

/-- `Value` — core/value.h:40-48; `dtype` 0 is `DT_INVALID` -/
structure Val where
  data : NdVal
  imag : Option NdVal
  dtype : ℕ

/-- `ValueChunkProto` — spu.proto:152-160 -/
structure Chunk where
  totalBytes : ℕ
  offset : ℕ
  content : Bytes
deriving DecidableEq, Repr

/-- `ValueMetaProto` -/
structure Meta where
  dataType : ℕ
  isComplex : Bool
  visibility : Vis
  shape : Shape
  storageType : Ty.Str
deriving DecidableEq, Repr

/-- `ValueProto` — core/value.h:33-36 -/
structure ValueProto where
  «meta» : Meta
  chunks : List Chunk
deriving DecidableEq, Repr

/-- `Type::size` of an existing type object (cached by its constructor) -/
def elsize (t : Ty.Ty) : ℕ := t.size.getD 0

/-- `Shape::numel` with its `int64_t` arithmetic — core/shape.h:54-57 -/
def numel64 (sh : Shape) : Except Err ℕ :=
  sh.foldlM (fun a d => if a * d < 2 ^ 63 then .ok (a * d) else .error .ub) 1

/-- `NdArrayRef::isCompact` — core/ndarray_ref.h:129-134 -/
def View.isCompact (v : View) : Bool := numel v.shape < 2 || v.strides = makeCompactStrides v.shape

/-- `Value::chunksCount` — core/value.cc:67-71 -/
def chunksCount (n es max : ℕ) : ℕ :=
  let total := n * es % 2 ^ 64
  (total + max - 1) % 2 ^ 64 / max

/-- `build_chunk`, one iteration — core/value.cc:85-95; `mem` are the bytes from the data pointer to the end of the buffer -/
def buildOne (mem : Bytes) (size max i : ℕ) : Except Err Chunk :=
  let off := i * max % 2 ^ 64
  let cs := min max ((size + (2 ^ 64 - off)) % 2 ^ 64)
  if cs = 0 then .ok ⟨size, off, []⟩
  else if off + cs ≤ mem.length then .ok ⟨size, off, (mem.drop off).take cs⟩ else .error .ub

/-- `build_chunk` — core/value.cc:79-97 -/
def buildChunks (mem : Bytes) (size num max : ℕ) : Except Err (List Chunk) :=
  if size = 0 then .ok [] else (List.range num).mapM (buildOne mem size max)

/-- the memory a data pointer points to: `NdArrayRef::data` -/
def NdVal.mem (a : NdVal) : Bytes := if a.view.offset < 0 then [] else (a.buf.toList.drop a.view.offset.toNat).flatten

/-- `array_to_chunks` — core/value.cc:101-110; `n` is the element count of the value -/
def arrayToChunks (n num max : ℕ) (a : NdVal) : Except Err (List Chunk) :=
  if a.view.isCompact then buildChunks a.mem (n * elsize a.ty % 2 ^ 64) num max
  else match a.view.clone a.buf with
    | none => .error .ub
    | some (b, w) =>
      if w.isCompact then buildChunks b.toList.flatten b.toList.flatten.length num max else .error .throw

/-- `Value::toMetaProto` — core/value.cc:122-134 -/
def toMeta (v : Val) : Except Err Meta :=
  if v.dtype = 0 ∨ visOf v.data.ty = .invalid then .error .throw
  else .ok ⟨v.dtype, v.imag.isSome, visOf v.data.ty, v.data.view.shape, v.data.ty.str⟩

/-- `Value::toProto` — core/value.cc:73-120 -/
def toProto (max : ℕ) (v : Val) : Except Err ValueProto := do
  if max = 0 then .error .throw
  if v.dtype = 0 ∨ visOf v.data.ty = .invalid then .error .throw
  let n ← numel64 v.data.view.shape
  let num := chunksCount n (elsize v.data.ty) max
  let re ← arrayToChunks n num max v.data
  let im ← match v.imag with
    | none => .ok []
    | some a => arrayToChunks n num max a
  let mt ← toMeta v
  .ok ⟨mt, re ++ im⟩

/-- What `fromProto` makes: arrays with freshly allocated compact buffers -/
structure Read where
  ty : Ty.Ty
  shape : Shape
  bytes : Bytes
  imag : Option Bytes
  dtype : ℕ
deriving DecidableEq, Repr

/-- `ordered_chunks.insert` — core/value.cc:173-177; `none` if the key exists -/
def insertChunk (c : Chunk) : List Chunk → Option (List Chunk)
  | [] => some [c]
  | d :: ds =>
    if c.offset = d.offset then none
    else if c.offset < d.offset then some (c :: d :: ds)
    else (insertChunk c ds).map (d :: ·)

/-- the ordered map of all chunks -/
def orderChunks (cs : List Chunk) : Option (List Chunk) := cs.foldlM (fun m c => insertChunk c m) []

/-- `memcpy` into a buffer -/
def memcpyTo (buf : Bytes) (off : ℕ) (c : Bytes) : Except Err Bytes :=
  if off + c.length ≤ buf.length then .ok (buf.take off ++ c ++ buf.drop (off + c.length)) else .error .ub

/-- the copy loop — core/value.cc:184-191; returns the buffer and `chunk_end_pos` -/
def fillLoop : List Chunk → Bytes → ℕ → Except Err (Bytes × ℕ)
  | [], buf, e => .ok (buf, e)
  | c :: cs, buf, e =>
    if c.offset ≠ e then .error .throw
    else do
      let buf ← memcpyTo buf c.offset c.content
      fillLoop cs buf (e + c.content.length)

/-- `Value::fromProto` for a real value — core/value.cc:156-195; `junk` is the uninitialised memory of a new buffer -/
def fromProtoReal (m : Ty.Ctx) (junk : ℕ → UInt8) (p : ValueProto) : Except Err Read :=
  match Ty.fromString m p.meta.storageType with
  | none => .error .throw
  | some t =>
    if p.meta.dataType = 0 then .error .throw
    else if p.meta.visibility ≠ visOf t then .error .throw
    else
      let total := (p.chunks.head?.map Chunk.totalBytes).getD 0
      match orderChunks p.chunks with
      | none => .error .throw
      | some ordered => do
        let n ← numel64 p.meta.shape
        let buf := (List.range (n * elsize t % 2 ^ 64)).map junk
        if buf.length ≠ total then .error .throw
        let r ← fillLoop ordered buf 0
        if total ≠ r.2 then .error .throw
        .ok ⟨t, p.meta.shape, r.1, none, p.meta.dataType⟩

/-- `Value::fromProto` — core/value.cc:136-196 -/
def fromProto (m : Ty.Ctx) (junk : ℕ → UInt8) (p : ValueProto) : Except Err Read :=
  if p.meta.isComplex then do
    let n := p.chunks.length / 2
    let rv ← fromProtoReal m junk ⟨{ p.meta with isComplex := false }, p.chunks.take n⟩
    let iv ← fromProtoReal m junk ⟨{ p.meta with isComplex := false }, (p.chunks.drop n).take n⟩
    if rv.ty.eq iv.ty then .ok { rv with imag := some iv.bytes } else .error .throw
  else fromProtoReal m junk p

end Spu.Model

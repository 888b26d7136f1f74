import Mathlib.Data.List.Basic
import Mathlib.Algebra.BigOperators.Group.List.Basic
import Mathlib.Data.Int.Notation
import Mathlib.Order.Basic

set_option autoImplicit false
set_option linter.dupNamespace false

/-!
# `BeaverCache` (`mpc/semi2k/beaver/beaver_cache.{h,cc}`)

State: the two-level map `cache_meta_` and the leveldb database, modelled as a map from keys to
byte strings (leveldb itself is trusted: `Get` returns the last `Put`, `Delete` removes).

A buffer is identified with its data pointer `x.buf()->data()`; entries hold a reference to the
buffer, so while a buffer has entries its address is not reused.
`α` is the unit of storage (a byte in the code), `D` the replay descriptor.
-/

namespace Spu.Model.Cache

/-- what identifies an `NdArrayRef` for the cache: `operator==` compares shape, strides, offset and
buffer (`core/ndarray_ref.h:95-98`). -/
structure View where
  buf : ℕ
  off : ℤ
  shape : List ℕ
  strides : List ℤ
  deriving DecidableEq, Repr

/-- `x.transpose()` without arguments reverses the axes (`core/ndarray_ref.cc:321-331`). -/
def View.transpose (x : View) : View :=
  { x with shape := x.shape.reverse, strides := x.strides.reverse }

/-- `x.data()` = buffer address plus offset (`core/ndarray_ref.h:161-169`). -/
def View.data (x : View) : ℤ := x.buf + x.off

/-- `KeyPrefix` (`beaver_cache.cc:24-38`): the 8-byte words data, shape..., strides... -/
def keyPrefix (x : View) : List ℤ := x.data :: (x.shape.map (fun (d : ℕ) => (d : ℤ)) ++ x.strides)

/-- `Key` (`beaver_cache.cc:40-47`). -/
def key (pre : List ℤ) (idx : ℕ) : List ℤ := pre ++ [(idx : ℤ)]

variable {α D : Type}

/-- `CacheMeta` (`beaver_cache.h:65-69`). -/
structure CacheMeta (D : Type) where
  replay : D
  keys : List (List ℤ)

structure Cache (α D : Type) where
  /-- `cache_meta_` -/
  cmeta : ℕ → Option (List (View × CacheMeta D))
  /-- `db_` -/
  db : List ℤ → Option (List α)

def empty : Cache α D := { cmeta := fun _ => none, db := fun _ => none }

/-- `buf_cache.find(x)` -/
def find (l : List (View × CacheMeta D)) (x : View) : Option (CacheMeta D) :=
  (l.find? (fun e => decide (e.1 = x))).map Prod.snd

/-- `EnableCache` (`beaver_cache.cc:50-56`). -/
def enable (c : Cache α D) (x : View) : Cache α D :=
  match c.cmeta x.buf with
  | some _ => c
  | none => { c with cmeta := fun b => if b = x.buf then some [] else c.cmeta b }

/-- the loop of `WriteCache` (`beaver_cache.cc:151-175`): the `do ... while` writes at least one
slice; `S` is `cache_slice_size_`.  Returns the keys and the new database. -/
def writeLoop (S : ℕ) (hS : 0 < S) (pre : List ℤ) (idx : ℕ) (rest : List α)
    (db : List ℤ → Option (List α)) : List (List ℤ) × (List ℤ → Option (List α)) :=
  let k := key pre idx
  let db' := fun q => if q = k then some (rest.take S) else db q
  if h : (rest.drop S).length ≠ 0 then
    let r := writeLoop S hS pre (idx + 1) (rest.drop S) db'
    (k :: r.1, r.2)
  else ([k], db')
termination_by rest.length
decreasing_by
  simp only [List.length_drop] at h ⊢
  omega

/-- `SetCache` (`beaver_cache.cc:99-117`); `none` = exception.  `bytes` is the contents of the compact
array `open_cache`. -/
def set (S : ℕ) (hS : 0 < S) (c : Cache α D) (x : View) (replay : D) (bytes : List α) :
    Option (Cache α D) :=
  match c.cmeta x.buf with
  | none => none
  | some l =>
    match find l x with
    | some _ => none
    | none =>
      let w := writeLoop S hS (keyPrefix x) 0 bytes c.db
      some { cmeta := fun b => if b = x.buf then some ((x, ⟨replay, w.1⟩) :: l) else c.cmeta b
             db := w.2 }

/-- the loop of `ReadCache` (`beaver_cache.cc:135-148`) with its checks; `size` is the byte size of the
result buffer, `acc` what has been read. -/
def readLoop (db : List ℤ → Option (List α)) (size : ℕ) : List (List ℤ) → List α → Option (List α)
  | [], acc => if acc.length = size then some acc else none
  | k :: ks, acc =>
    match db k with
    | none => none
    | some s => if s.length ≤ size - acc.length then readLoop db size ks (acc ++ s) else none

/-- result of a lookup: `Cache` (`beaver_cache.h:47-51`): enabled, and for a hit the descriptor, whether it
is a transposed replay, and the stored opening (to be transposed in that case). -/
inductive Lookup (α D : Type) where
  | disabled
  | miss
  | hit (desc : D) (open_ : List α)
  | hitTransposed (desc : D) (open_ : List α)
  deriving DecidableEq, Repr

/-- `Check` (`beaver_cache.cc:20-23`); `sz d` is `replay.size`, the field is fixed. -/
def chk (sz : D → ℕ) (x : View) (d : D) : Bool := decide (x.shape.prod = sz d)

/-- `GetCache` (`beaver_cache.cc:58-97`); `none` = exception.  `es` is `SizeOf(replay.field)`. -/
def get (sz : D → ℕ) (es : ℕ) (c : Cache α D) (x : View)
    (allowTranspose : Bool) : Option (Lookup α D) :=
  match c.cmeta x.buf with
  | none => some .disabled
  | some l =>
    match find l x with
    | some m =>
      if chk sz x m.replay then
        (readLoop c.db (sz m.replay * es) m.keys []).map (Lookup.hit m.replay)
      else none
    | none =>
      if allowTranspose then
        match find l x.transpose with
        | some m =>
          if chk sz x m.replay then
            (readLoop c.db (sz m.replay * es) m.keys []).map (Lookup.hitTransposed m.replay)
          else none
        | none => some .miss
      else some .miss

/-- `DropCache` over all entries and `DisableCache` (`beaver_cache.cc:119-133`, `:177-182`). -/
def disable (c : Cache α D) (x : View) : Cache α D :=
  match c.cmeta x.buf with
  | none => c
  | some l =>
    { cmeta := fun b => if b = x.buf then none else c.cmeta b
      db := l.foldl (fun db e => e.2.keys.foldl (fun db k => fun q => if q = k then none else db q) db)
        c.db }

/-- requests that change the cache -/
inductive Op (α D : Type) where
  | enable (x : View)
  | set (x : View) (desc : D) (bytes : List α)
  | disable (x : View)

/-- a request; a rejected `SetCache` throws and leaves the cache as it is -/
def step (S : ℕ) (hS : 0 < S) (c : Cache α D) : Op α D → Cache α D
  | .enable x => enable c x
  | .set x d b => (set S hS c x d b).getD c
  | .disable x => disable c x

/-- the cache after a history, oldest request first -/
def run (S : ℕ) (hS : 0 < S) (h : List (Op α D)) : Cache α D := h.foldl (step S hS) empty

end Spu.Model.Cache

import Mathlib.Data.Rat.Defs
import Mathlib.Algebra.Order.Field.Rat
import Mathlib.Algebra.GroupWithZero.Basic
import Mathlib.Data.Nat.Size
import Mathlib.Tactic.NormNum
import Verif.Model.NdArray
import Verif.Model.Value

set_option autoImplicit false

/-!
# Model of `core/encoding.cc` and `core/pt_buffer_view.h`: plaintext to ring and back

IEEE 754 numbers are modelled exactly: a finite number is `m * 2^e` with at most `p` bits in `m`; rounding is to nearest,
ties to even, with gradual underflow and overflow to infinity.  `half_float::half` is modelled with the same rounding, and
arithmetic of a half with an integer is done in `float` (there is an implicit conversion).  A floating-point number out of
the range of the integer type it is cast to is undefined behaviour (`none`).  The sign of zero is not modelled.
-/

namespace Spu.Model.Enc

/-- A floating-point format: precision, and least and greatest exponent of the last bit -/
structure Fmt where
  p : ℕ
  emin : ℤ
  emax : ℤ
deriving DecidableEq, Repr

def half : Fmt := ⟨11, -24, 5⟩
def single : Fmt := ⟨24, -149, 104⟩
def double : Fmt := ⟨53, -1074, 971⟩

/-- A floating-point number -/
inductive Fl where
  | nan
  | inf (neg : Bool)
  | fin (m e : ℤ)
deriving DecidableEq, Repr

/-- Division of `m` by `2^s`, rounded to nearest, ties to even -/
def rne (m : ℤ) (s : ℕ) : ℤ :=
  let q := m.natAbs / 2 ^ s
  let r := m.natAbs % 2 ^ s
  let q' := if 2 ^ s < 2 * r ∨ (2 ^ s = 2 * r ∧ q % 2 = 1) then q + 1 else q
  if m < 0 then -(q' : ℤ) else q'

/-- a rounded significand in range -/
def norm (F : Fmt) (m e : ℤ) : Fl :=
  if m.natAbs = 0 then .fin 0 F.emin
  else if e ≤ F.emax then .fin m e
  else if m.natAbs * 2 ^ (e - F.emax).toNat < 2 ^ F.p then .fin (m * 2 ^ (e - F.emax).toNat) F.emax
  else .inf (m < 0)

/-- `m * 2^e` rounded to the format -/
def rnd (F : Fmt) (m e : ℤ) : Fl :=
  let s := max (m.natAbs.size - F.p) (F.emin - e).toNat
  let m' := rne m s
  if m'.natAbs = 2 ^ F.p then norm F (m' / 2) (e + s + 1) else norm F m' (e + s)

/-- conversion between formats -/
def conv (F : Fmt) : Fl → Fl
  | .nan => .nan
  | .inf b => .inf b
  | .fin m e => rnd F m e

/-- conversion of an integer -/
def ofInt (F : Fmt) (n : ℤ) : Fl := rnd F n 0

/-- product with the integer `2^f` in format `F` -/
def mulScale (F : Fmt) (f : ℕ) : Fl → Fl
  | .nan => .nan
  | .inf b => .inf b
  | .fin m e => rnd F m (e + f)

/-- quotient by the integer `2^f` in format `F` -/
def divScale (F : Fmt) (f : ℕ) : Fl → Fl
  | .nan => .nan
  | .inf b => .inf b
  | .fin m e => rnd F m (e - f)

/-- the value of a finite number -/
def val (m e : ℤ) : ℚ := m * 2 ^ e

/-- `<=` of floating-point numbers -/
def Fl.le : Fl → Fl → Bool
  | .nan, _ => false
  | _, .nan => false
  | .inf true, _ => true
  | _, .inf false => true
  | .inf false, _ => false
  | _, .inf true => false
  | .fin m e, .fin m' e' => val m e ≤ val m' e'

/-- cast to a signed integer of `k` bits: truncation towards zero -/
def toInt (k : ℕ) : Fl → Option ℤ
  | .fin m e =>
    let n := if 0 ≤ e then m * 2 ^ e.toNat else m.tdiv (2 ^ (-e).toNat)
    if -2 ^ (k - 1) ≤ n ∧ n < 2 ^ (k - 1) then some n else none
  | _ => none

/-- the format in which a number of format `F` is multiplied by an integer -/
def arith (F : Fmt) : Fmt := if F = half then single else F

/-- Encoding of one floating-point number — core/encoding.cc:71-95; `k` is the width of the ring, `f` the fraction bits.
    The result is the signed word. -/
def encodeFloat (F : Fmt) (k f : ℕ) (x : Fl) : Option ℤ :=
  let kFxpLower : ℤ := -2 ^ (k - 2)
  let kFxpUpper : ℤ := 2 ^ (k - 2) - 1
  let kFlpUpper := conv F (divScale double f (ofInt double kFxpUpper))
  let kFlpLower := conv F (divScale double f (ofInt double kFxpLower))
  if x = .nan then some 0
  else if kFlpUpper.le x then some kFxpUpper
  else if x.le kFlpLower then some kFxpLower
  else toInt k (mulScale (arith F) f x)

/-- Decoding of one ring element as floating-point number — core/encoding.cc:155-160 -/
def decodeFloat (F : Fmt) (f : ℕ) (n : ℤ) : Fl := conv F (divScale double f (ofInt double n))

/-- Encoding of one integer of width `w` — core/encoding.cc:105-117; the value of the source is an integer in the range of
    its type -/
def encodeInt (k w : ℕ) (x : ℤ) : Option (BitVec k) := if w ≤ k then some (BitVec.ofInt k x) else none

/-- Decoding of one ring element as an integer — core/encoding.cc:162-165: the low `w` bits, read as signed or unsigned -/
def decodeInt {k : ℕ} (w : ℕ) (signed : Bool) (n : BitVec k) : ℤ :=
  if signed then (BitVec.ofInt w n.toInt).toInt else (BitVec.ofInt w n.toInt).toNat

/-- Decoding of one ring element as boolean — core/encoding.cc:148-152 -/
def decodeBool {k : ℕ} (n : BitVec k) : Bool := !(decide ((n &&& 1#k) = 0#k))

/-- element address of `PtBufferView::get(size_t)` and `set(size_t)` — core/pt_buffer_view.h:129-141, 153-162 -/
def ptAddr (v : View) (p : ℕ) : Option ℤ :=
  if v.isCompact then some (v.offset + p) else (unflattenIndex p v.shape).map v.addr

/-- `encodeToRing` — core/encoding.cc:52-125, with the element encoding as parameter: a new compact array -/
def encodeArr {α β : Type} (enc : α → Option β) (buf : Array α) (v : View) : Option (List β) :=
  (List.range (numel v.shape)).mapM fun p => do
    let i ← ptAddr v p
    let x ← rd buf i
    enc x

/-- `decodeFromRing` — core/encoding.cc:127-172, with the element decoding as parameter: every element of the ring array is
    decoded and written to the plaintext buffer (the parallel loop is run in order) -/
def decodeArr {α β : Type} (dec : β → α) (sbuf : Array β) (sv : View) (buf : Array α) (v : View) : Option (Array α) :=
  (List.range (numel sv.shape)).foldlM (init := buf) fun out p => do
    let i ← sv.addrLin p
    let x ← rd sbuf i
    let j ← ptAddr v p
    wr out j (dec x)

end Spu.Model.Enc

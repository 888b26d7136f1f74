/-
The peephole rewrites of the compiler.

`/repo/src/libspu/compiler/core/core.cc:43-105` runs, one after another, passes that each apply a
set of local rewrite patterns greedily until none applies:

* `transforms/decompose_patterns.td:21-67` and `transforms/decompose_ops.cc:30-51`,
* `transforms/rewrite_signbit.cc:38-103`,
* `transforms/optimize_sqrt_plus_eps.cc:29-80`,
* `transforms/rewrite_div_sqrt_patterns.cc:26-96`,
* `transforms/optimize_denominator_with_broadcast.cc:26-51`,
* `transforms/convert_push_down.cc:27-66`,
* `transforms/reduce_truncation.cc:28-82`,
* `transforms/lower_mixed_type_op.cc:33-76`,
* `transforms/optimize_select.cc:57-122`,
* the folders and canonicalisation patterns of `IR/fold.cc:22-150` and
  `IR/canonicalization_patterns.td:20-24`,

all under `/repo/src/libspu/dialect/pphlo`.  Programs are modelled as expressions: a value used more
than once is written out at every use, which is what the patterns see, since they only look from a
use to its definition.  A tensor is a function from positions to elements; broadcasting, reshaping,
transposing and slicing are the single constructor `move g`, whose element at `i` is the element of
the operand at `g i`.

Integers are ideal integers and floats ideal reals: neither the wrap around of the machine integers
nor the rounding of the fixed point encoding is part of this model.
-/
import Mathlib.Data.Real.Sqrt
import Mathlib.Logic.Relation

set_option autoImplicit false

namespace Spu.Rewrites

/-- The element types the patterns distinguish. -/
inductive Ty
  | bool | int | flt
  deriving DecidableEq

/-- An element.  The runtime carries the type with the value
(`/repo/src/libspu/core/value.h`, `Value::dtype`). -/
inductive Val
  | b (p : Bool)
  | i (n : ℤ)
  | f (x : ℝ)

/-- The type carried by a value. -/
def Val.ty : Val → Ty
  | .b _ => .bool
  | .i _ => .int
  | .f _ => .flt

/-- The number a value stands for. -/
def Val.real : Val → ℝ
  | .b p => if p then 1 else 0
  | .i n => n
  | .f x => x

/-- The integer, when the type is one of the integer types. -/
def Val.asInt : Val → Option ℤ
  | .b p => some (if p then 1 else 0)
  | .i n => some n
  | .f _ => none

/-- `dtypeBinaryDispatch`, `/repo/src/libspu/kernel/hal/polymorphic.cc:38-62`: the integer operation
on two integers, otherwise the float one with the integer promoted. -/
def arith (fi : ℤ → ℤ → ℤ) (ff : ℝ → ℝ → ℝ) (x y : Val) : Val :=
  match x.asInt, y.asInt with
  | some m, some n => .i (fi m n)
  | _, _ => .f (ff x.real y.real)

/-- Unary operations.  `bcast`-like operations are `Ex.move`. -/
inductive UnOp
  | neg | not | sqrt | rsqrt | recip | sign | preferA
  | conv (t : Ty)

/-- Binary operations. -/
inductive BinOp
  | add | sub | mul | div | eq | ne | lt | le | gt | ge | max | min | or | ashr

/-- Conversion; a float is truncated towards zero. -/
noncomputable def convert (t : Ty) (v : Val) : Val :=
  match t with
  | .bool => .b (if v.real = 0 then false else true)
  | .int => match v with
    | .b p => .i (if p then 1 else 0)
    | .i n => .i n
    | .f x => .i (if 0 ≤ x then ⌊x⌋ else ⌈x⌉)
  | .flt => .f v.real

/-- Meaning of a unary operation; `none` where it is undefined. -/
noncomputable def UnOp.eval : UnOp → Val → Option Val
  | .neg, .i n => some (.i (-n))
  | .neg, .f x => some (.f (-x))
  | .neg, .b _ => none
  | .not, .b p => some (.b (!p))
  | .not, .i n => some (.i (-n - 1))
  | .not, .f _ => none
  | .sqrt, .f x => if 0 ≤ x then some (.f (Real.sqrt x)) else none
  | .sqrt, _ => none
  | .rsqrt, .f x => if 0 < x then some (.f (1 / Real.sqrt x)) else none
  | .rsqrt, _ => none
  | .recip, .f x => if x = 0 then none else some (.f (1 / x))
  | .recip, _ => none
  | .sign, .i n => some (.i (if n < 0 then -1 else 1))
  | .sign, .f x => some (.f (if x < 0 then -1 else 1))
  | .sign, .b _ => none
  | .preferA, v => some v
  | .conv t, v => some (convert t v)

/-- A comparison. -/
noncomputable def relV (r : ℝ → ℝ → Prop) (x y : Val) : Val :=
  open Classical in .b (if r x.real y.real then true else false)

/-- Meaning of a binary operation; on booleans addition is disjunction and multiplication
conjunction, as StableHLO defines them. -/
noncomputable def BinOp.eval : BinOp → Val → Val → Option Val
  | .add, .b p, .b q => some (.b (p || q))
  | .add, x, y => some (arith (· + ·) (· + ·) x y)
  | .sub, .b _, .b _ => none
  | .sub, .b _, .i _ => none
  | .sub, .i _, .b _ => none
  | .sub, .b _, .f _ => none
  | .sub, .f _, .b _ => none
  | .sub, x, y => some (arith (· - ·) (· - ·) x y)
  | .mul, .b p, .b q => some (.b (p && q))
  | .mul, x, y => some (arith (· * ·) (· * ·) x y)
  | .div, x, y => if y.real = 0 then none else some (arith Int.tdiv (· / ·) x y)
  | .eq, x, y => some (relV (· = ·) x y)
  | .ne, x, y => some (relV (· ≠ ·) x y)
  | .lt, x, y => some (relV (· < ·) x y)
  | .le, x, y => some (relV (· ≤ ·) x y)
  | .gt, x, y => some (relV (· > ·) x y)
  | .ge, x, y => some (relV (· ≥ ·) x y)
  | .max, .b p, .b q => some (.b (p || q))
  | .max, .i m, .i n => some (.i (Max.max m n))
  | .max, .f x, .f y => some (.f (Max.max x y))
  | .max, _, _ => none
  | .min, .b p, .b q => some (.b (p && q))
  | .min, .i m, .i n => some (.i (Min.min m n))
  | .min, .f x, .f y => some (.f (Min.min x y))
  | .min, _, _ => none
  | .or, .b p, .b q => some (.b (p || q))
  | .or, _, _ => none
  | .ashr, .i m, .i n => if 0 ≤ n then some (.i (m / 2 ^ n.toNat)) else none
  | .ashr, _, _ => none

/-- Expressions.  `lit` is a splat constant, `eps` the `EpsilonOp`. -/
inductive Ex
  | var (k : ℕ)
  | lit (v : Val)
  | eps
  | un (o : UnOp) (a : Ex)
  | bin (o : BinOp) (a b : Ex)
  | select (p a b : Ex)
  | clamp (lo x hi : Ex)
  | move (g : ℕ → ℕ) (a : Ex)

/-- The inputs of a program, and the value of `EpsilonOp` at run time. -/
structure Env where
  inp : ℕ → ℕ → Val
  eps : ℝ

/-- `hal::select`, `/repo/src/libspu/kernel/hal/polymorphic.cc:236-249`: both values must have the
same type. -/
def choose (p x y : Val) : Option Val :=
  match p with
  | .b q => if x.ty = y.ty then some (if q then x else y) else none
  | _ => none

/-- `clamp(lo, x, hi) = min(max(lo, x), hi)`, the definition of the StableHLO operation. -/
noncomputable def clampV (lo x hi : Val) : Option Val :=
  match lo, x, hi with
  | .i l, .i n, .i h => some (.i (if h < (if n < l then l else n) then h else if n < l then l else n))
  | .f l, .f n, .f h => open Classical in
      some (.f (if h < (if n < l then l else n) then h else if n < l then l else n))
  | .b l, .b n, .b h => some (.b ((l || n) && h))
  | _, _, _ => none

/-- The element at position `i` of the tensor an expression stands for. -/
noncomputable def Ex.eval (Γ : Env) : Ex → ℕ → Option Val
  | .var k, i => some (Γ.inp k i)
  | .lit v, _ => some v
  | .eps, _ => some (.f Γ.eps)
  | .un o a, i => (a.eval Γ i).bind o.eval
  | .bin o a b, i => (a.eval Γ i).bind fun x => (b.eval Γ i).bind fun y => o.eval x y
  | .select p a b, i =>
      (p.eval Γ i).bind fun q => (a.eval Γ i).bind fun x => (b.eval Γ i).bind fun y => choose q x y
  | .clamp lo x hi, i =>
      (lo.eval Γ i).bind fun l => (x.eval Γ i).bind fun n => (hi.eval Γ i).bind fun h => clampV l n h
  | .move g a, i => a.eval Γ (g i)

/-- The static types the patterns consult: `has e t` when `e` is an expression of element type `t`,
`fits e w` when it is an integer of `w` bits. -/
structure Types where
  has : Ex → Ty → Prop
  fits : Ex → ℕ → Prop

/-- `rewriteSqrtIfPossible`, `rewrite_div_sqrt_patterns.cc:28-50`. -/
def rsqrtOf : Ex → Option Ex
  | .un .sqrt a => some (.un .rsqrt a)
  | .move g a => (rsqrtOf a).map (.move g)
  | _ => none

/-- The zero `isSplatZero` recognises, `optimize_select.cc:29-38`. -/
def isZero : Val → Prop
  | .b p => p = false
  | .i n => n = 0
  | .f x => x = 0

/-- One application of a pattern at the root.  Patterns of commutative operations are given in every
order of the operands.  Left out: `sqrtEps` and `mixedInt` below. -/
inductive Root (T : Types) : Ex → Ex → Prop
  -- decompose_patterns.td
  | notEqual (x y) : Root T (.bin .ne x y) (.un .not (.bin .eq x y))
  | greaterEqual (x y) : Root T (.bin .ge x y) (.un .not (.bin .lt x y))
  | lessEqual (x y) : Root T (.bin .le x y) (.un .not (.bin .gt x y))
  | max (x y) : Root T (.bin .max x y) (.select (.bin .gt x y) x y)
  | min (x y) : Root T (.bin .min x y) (.select (.bin .lt x y) x y)
  | sub (x y) : Root T (.bin .sub x y) (.bin .add x (.un .neg y))
  | greater (x y) : Root T (.bin .gt x y) (.bin .lt y x)
  | clamp (l x h) : Root T (.clamp l x h) (.bin .min (.bin .max l x) h)
  -- decompose_ops.cc:30-51
  | boolAdd (x y) : T.has x .bool → T.has y .bool → Root T (.bin .add x y) (.bin .or x y)
  -- rewrite_signbit.cc:52-102
  | signbit (x) (w : ℕ) : 0 < w → T.fits x w →
      Root T (.bin .ashr x (.lit (.i (w - 1))))
        (.bin .ashr (.un (.conv .int) (.un .sign x)) (.lit (.i 1)))
  -- rewrite_div_sqrt_patterns.cc:56-95
  | divSqrt (y d r) : rsqrtOf d = some r → Root T (.bin .div y d) (.bin .mul y r)
  | divMulSqrtL (y s k r) : T.has y .flt → rsqrtOf s = some r →
      Root T (.bin .div y (.bin .mul s k)) (.bin .mul (.bin .div y k) r)
  | divMulSqrtR (y s k r) : T.has y .flt → rsqrtOf s = some r →
      Root T (.bin .div y (.bin .mul k s)) (.bin .mul (.bin .div y k) r)
  -- optimize_denominator_with_broadcast.cc:30-49; a reciprocal has float operands (ops.td:1127)
  | divBroadcast (x y g) : T.has y .flt →
      Root T (.bin .div x (.move g y)) (.bin .mul x (.move g (.un .recip y)))
  -- convert_push_down.cc
  | convertPush (t x g) : Root T (.move g (.un (.conv t) x)) (.un (.conv t) (.move g x))
  -- reduce_truncation.cc:56-81
  | mulSP (p q s s' e) : (s' = .bin .mul p s ∨ s' = .bin .mul s p) →
      (e = .bin .mul q s' ∨ e = .bin .mul s' q) →
      Root T e (.bin .mul (.bin .mul p q) s)
  -- lower_mixed_type_op.cc:52-75
  | mixedL (x y) : T.has x .int ∨ T.has x .bool → T.has y .flt →
      Root T (.bin .mul (.un (.conv .flt) x) y) (.bin .mul x y)
  | mixedR (x y) : T.has x .flt → T.has y .int ∨ T.has y .bool →
      Root T (.bin .mul x (.un (.conv .flt) y)) (.bin .mul x y)
  -- optimize_select.cc:62-121
  | selectZero (p x z) : isZero z → Root T (.select p x (.lit z)) (.bin .mul p x)
  | preferA (p x y) : Root T (.select p x y) (.select (.un .preferA p) x y)
  -- canonicalization_patterns.td:20-24
  | selectNot (p x y) : T.has p .bool → Root T (.select (.un .not p) x y) (.select p y x)
  -- fold.cc
  | convSame (t x) : T.has x t → Root T (.un (.conv t) x) x
  | moveId (g x) : (∀ i, g i = i) → Root T (.move g x) x
  | moveMove (g h x) : (∀ i, h (g i) = i) → Root T (.move g (.move h x)) x
  | recipLit (x) : Root T (.un .recip (.lit (.f x))) (.lit (.f (1 / x)))
  | mulLit (x y z) : BinOp.mul.eval x y = some z → Root T (.bin .mul (.lit x) (.lit y)) (.lit z)
  -- the `Commutative` trait: constants move to the right
  | mulComm (x y) : Root T (.bin .mul x y) (.bin .mul y x)
  | addComm (x y) : Root T (.bin .add x y) (.bin .add y x)

/-- A pattern applied anywhere inside an expression. -/
inductive Step (R : Ex → Ex → Prop) : Ex → Ex → Prop
  | root {a b} : R a b → Step R a b
  | un (o) {a b} : Step R a b → Step R (.un o a) (.un o b)
  | binL (o c) {a b} : Step R a b → Step R (.bin o a c) (.bin o b c)
  | binR (o c) {a b} : Step R a b → Step R (.bin o c a) (.bin o c b)
  | select1 (x y) {a b} : Step R a b → Step R (.select a x y) (.select b x y)
  | select2 (x y) {a b} : Step R a b → Step R (.select x a y) (.select x b y)
  | select3 (x y) {a b} : Step R a b → Step R (.select x y a) (.select x y b)
  | clamp1 (x y) {a b} : Step R a b → Step R (.clamp a x y) (.clamp b x y)
  | clamp2 (x y) {a b} : Step R a b → Step R (.clamp x a y) (.clamp x b y)
  | clamp3 (x y) {a b} : Step R a b → Step R (.clamp x y a) (.clamp x y b)
  | move (g) {a b} : Step R a b → Step R (.move g a) (.move g b)

/-- `SqrtRewriter`, `optimize_sqrt_plus_eps.cc:29-79`: a constant passes `isSmallerThanEps` when it
is at most the machine epsilon `m`. -/
inductive SqrtEps (m : ℝ) : Ex → Ex → Prop
  | mk (x c) : c ≤ m →
      SqrtEps m (.bin .add (.un .sqrt x) (.lit (.f c))) (.un .sqrt (.bin .add x .eps))

/-- `FxpIntMulTruncationRemover`, `lower_mixed_type_op.cc:52-75`, as written: only the operand that
is a conversion is looked at, the other may have any type as long as it is not itself a conversion.
Since the converted operand is a float, so is the result type of the operation. -/
inductive Mixed (T : Types) : Ex → Ex → Prop
  | left (x y) : T.has x .int ∨ T.has x .bool → (∀ t z, y ≠ .un (.conv t) z) →
      Mixed T (.bin .mul (.un (.conv .flt) x) y) (.bin .mul x y)
  | right (x y) : T.has y .int ∨ T.has y .bool → (∀ t z, x ≠ .un (.conv t) z) →
      Mixed T (.bin .mul x (.un (.conv .flt) y)) (.bin .mul x y)

end Spu.Rewrites

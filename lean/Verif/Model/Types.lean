import Mathlib.Logic.Function.Basic
import Mathlib.Data.Nat.Notation
import Mathlib.Data.Int.Notation

set_option autoImplicit false

/-!
# Types, their strings and the type registry

`core/type.h`, `core/type.cc` and the type classes of the protocols.  A C++ string is a list of characters.  A type is the
class of the type object together with its data members.  `magic_enum` is modelled by the tables of enumerators.
-/

namespace Spu.Model.Ty

abbrev Str := List Char

/-- `PtType` (`spu.h:64-86`) -/
inductive Pt where
  | invalid | i8 | u8 | i16 | u16 | i32 | u32 | i64 | u64 | i128 | u128 | i1 | f16 | f32 | f64 | cf32 | cf64
deriving DecidableEq, Repr

/-- `FieldType` (`spu.h:91-97`) -/
inductive Ft where
  | invalid | fm32 | fm64 | fm128
deriving DecidableEq, Repr

/-- `magic_enum::enum_name<PtType>` -/
def Pt.name : Pt → Str
  | .invalid => ['P', 'T', '_', 'I', 'N', 'V', 'A', 'L', 'I', 'D']
  | .i8 => ['P', 'T', '_', 'I', '8']
  | .u8 => ['P', 'T', '_', 'U', '8']
  | .i16 => ['P', 'T', '_', 'I', '1', '6']
  | .u16 => ['P', 'T', '_', 'U', '1', '6']
  | .i32 => ['P', 'T', '_', 'I', '3', '2']
  | .u32 => ['P', 'T', '_', 'U', '3', '2']
  | .i64 => ['P', 'T', '_', 'I', '6', '4']
  | .u64 => ['P', 'T', '_', 'U', '6', '4']
  | .i128 => ['P', 'T', '_', 'I', '1', '2', '8']
  | .u128 => ['P', 'T', '_', 'U', '1', '2', '8']
  | .i1 => ['P', 'T', '_', 'I', '1']
  | .f16 => ['P', 'T', '_', 'F', '1', '6']
  | .f32 => ['P', 'T', '_', 'F', '3', '2']
  | .f64 => ['P', 'T', '_', 'F', '6', '4']
  | .cf32 => ['P', 'T', '_', 'C', 'F', '3', '2']
  | .cf64 => ['P', 'T', '_', 'C', 'F', '6', '4']

/-- `magic_enum::enum_name<FieldType>` -/
def Ft.name : Ft → Str
  | .invalid => ['F', 'T', '_', 'I', 'N', 'V', 'A', 'L', 'I', 'D']
  | .fm32 => ['F', 'M', '3', '2']
  | .fm64 => ['F', 'M', '6', '4']
  | .fm128 => ['F', 'M', '1', '2', '8']

def Pt.all : List Pt := [.invalid, .i8, .u8, .i16, .u16, .i32, .u32, .i64, .u64, .i128, .u128, .i1, .f16, .f32, .f64, .cf32, .cf64]
def Ft.all : List Ft := [.invalid, .fm32, .fm64, .fm128]

/-- `magic_enum::enum_cast` -/
def castPt (s : Str) : Option Pt := Pt.all.find? (fun p => p.name = s)
def castFt (s : Str) : Option Ft := Ft.all.find? (fun p => p.name = s)

/-- `SizeOf(PtType)` (`core/type_util.cc:107-119`) -/
def Pt.size : Pt → ℕ
  | .invalid => 0
  | .i8 => 1
  | .u8 => 1
  | .i16 => 2
  | .u16 => 2
  | .i32 => 4
  | .u32 => 4
  | .i64 => 8
  | .u64 => 8
  | .i128 => 16
  | .u128 => 16
  | .i1 => 1
  | .f16 => 2
  | .f32 => 4
  | .f64 => 8
  | .cf32 => 8
  | .cf64 => 16

/-- `SizeOf(GetStorageType(field))` (`core/type_util.cc:153-166`); `none` is the exception -/
def Ft.size : Ft → Option ℕ
  | .invalid => none
  | .fm32 => some 4
  | .fm64 => some 8
  | .fm128 => some 16

/-- `GetMersennePrimeExp` (`core/type_util.cc:132-143`) -/
def Ft.mpExp : Ft → Option ℕ
  | .invalid => none
  | .fm32 => some 31
  | .fm64 => some 61
  | .fm128 => some 127

/-- The classes derived from `RingTy` that inherit its `toString`, `fromString` and `equals`:
    `ring` (`core/type.h:363-387`); `pub2k` (`mpc/common/pv2k.h:22-30`); `ref2kS` (`mpc/ref2k/ref2k.cc:30-37`); `semi2kA` (`mpc/semi2k/type.h:21-28`); `semi2kP` (`mpc/semi2k/type.h:55-62`); `cheetahA` (`mpc/cheetah/type.h:21-28`); `cheetahP` (`mpc/cheetah/type.h:55-62`); `aby3A` (`mpc/aby3/type.h:21-31`); `aby3O` (`mpc/aby3/type.h:33-44`); `aby3OP` (`mpc/aby3/type.h:46-57`); `aby3P` (`mpc/aby3/type.h:109-119`); `securennA` (`mpc/securenn/type.h:21-28`); `swiftA` (`mpc/experimental/swift/type.h:21-35`); `swiftP` (`mpc/experimental/swift/type.h:69-76`) -/
inductive RingCls where
  | ring | pub2k | ref2kS | semi2kA | semi2kP | cheetahA | cheetahP | aby3A | aby3O | aby3OP | aby3P | securennA | swiftA | swiftP
deriving DecidableEq, Repr

/-- The `BShrTy` classes that print `field,nbits`: `mpc/semi2k/type.h:30-53`; `mpc/cheetah/type.h:30-53`; `mpc/securenn/type.h:30-53`; `mpc/experimental/swift/type.h:37-67` -/
inductive BCls where
  | semi2k | cheetah | securenn | swift
deriving DecidableEq, Repr

/-- The classes of type objects -/
inductive Kind where
  | void | pt | ring (c : RingCls) | gfmp | priv | bshr (c : BCls) | aby3B | spdz2kA | spdz2kB
deriving DecidableEq, Repr

/-- `getStaticId` -/
def RingCls.id : RingCls → Str
  | .ring => ['R', 'i', 'n', 'g']
  | .pub2k => ['P', 'u', 'b', '2', 'k']
  | .ref2kS => ['r', 'e', 'f', '2', 'k', '.', 'S', 'e', 'c']
  | .semi2kA => ['s', 'e', 'm', 'i', '2', 'k', '.', 'A', 'S', 'h', 'r']
  | .semi2kP => ['s', 'e', 'm', 'i', '2', 'k', '.', 'P', 'S', 'h', 'r']
  | .cheetahA => ['c', 'h', 'e', 'e', 't', 'a', 'h', '.', 'A', 'S', 'h', 'r']
  | .cheetahP => ['c', 'h', 'e', 'e', 't', 'a', 'h', '.', 'P', 'S', 'h', 'r']
  | .aby3A => ['a', 'b', 'y', '3', '.', 'A', 'S', 'h', 'r']
  | .aby3O => ['a', 'b', 'y', '3', '.', 'O', 'S', 'h', 'r']
  | .aby3OP => ['a', 'b', 'y', '3', '.', 'O', 'S', 'h', 'r']
  | .aby3P => ['a', 'b', 'y', '3', '.', 'P', 'S', 'h', 'r']
  | .securennA => ['s', 'e', 'c', 'u', 'r', 'e', 'n', 'n', '.', 'A', 'S', 'h', 'r']
  | .swiftA => ['s', 'w', 'i', 'f', 't', '.', 'A', 'S', 'h', 'r']
  | .swiftP => ['s', 'w', 'i', 'f', 't', '.', 'P', 'S', 'h', 'r']

def BCls.id : BCls → Str
  | .semi2k => ['s', 'e', 'm', 'i', '2', 'k', '.', 'B', 'S', 'h', 'r']
  | .cheetah => ['c', 'h', 'e', 'e', 't', 'a', 'h', '.', 'B', 'S', 'h', 'r']
  | .securenn => ['s', 'e', 'c', 'u', 'r', 'e', 'n', 'n', '.', 'B', 'S', 'h', 'r']
  | .swift => ['s', 'w', 'i', 'f', 't', '.', 'B', 'S', 'h', 'r']

def Kind.id : Kind → Str
  | .void => ['V', 'o', 'i', 'd']
  | .pt => ['P', 'l', 'a', 'i', 'n', 't', 'e', 'x', 't']
  | .ring c => c.id
  | .gfmp => ['G', 'f', 'm', 'p']
  | .priv => ['P', 'r', 'i', 'v', '2', 'k']
  | .bshr c => c.id
  | .aby3B => ['a', 'b', 'y', '3', '.', 'B', 'S', 'h', 'r']
  | .spdz2kA => ['s', 'p', 'd', 'z', '2', 'k', '.', 'A', 'S', 'h', 'r']
  | .spdz2kB => ['s', 'p', 'd', 'z', '2', 'k', '.', 'B', 'S', 'h', 'r']

/-- A type object -/
inductive Ty where
  /-- `VoidTy` (`core/type.h:291-308`) -/
  | void
  /-- `PtTy` (`core/type.h:311-333`) -/
  | pt (p : Pt)
  /-- `RingTy` and derived classes: `field_` -/
  | ring (c : RingCls) (f : Ft)
  /-- `GfmpTy` (`core/type.h:390-424`): `field_`, `mersenne_prime_exp_`, `prime_` -/
  | gfmp (f : Ft) (exp : ℕ) (p : ℕ)
  /-- `Priv2kTy` (`mpc/common/pv2k.h:35-64`): `field_`, `owner_` -/
  | priv (f : Ft) (owner : ℤ)
  /-- `BShrTy` with a field: `field_`, `nbits_` -/
  | bshr (c : BCls) (f : Ft) (nbits : ℕ)
  /-- `aby3::BShrTy` (`mpc/aby3/type.h:78-106`): `back_type_`, `nbits_` -/
  | aby3B (b : Pt) (nbits : ℕ)
  /-- `spdz2k::AShrTy` (`mpc/spdz2k/type.h:22-41`): `field_`, `has_mac_` -/
  | spdz2kA (f : Ft) (mac : Bool)
  /-- `spdz2k::BShrTy` (`mpc/spdz2k/type.h:43-82`): `back_type_`, `nbits_`, `field_`, `k_` -/
  | spdz2kB (b : Pt) (nbits : ℕ) (f : Ft) (k : ℕ)
deriving DecidableEq, Repr

def Ty.kind : Ty → Kind
  | .void => .void
  | .pt _ => .pt
  | .ring c _ => .ring c
  | .gfmp .. => .gfmp
  | .priv .. => .priv
  | .bshr c _ _ => .bshr c
  | .aby3B .. => .aby3B
  | .spdz2kA .. => .spdz2kA
  | .spdz2kB .. => .spdz2kB

/-- `RingTy::size` (`core/type.h:372-377`) -/
def ringSize (f : Ft) : Option ℕ := if f = .invalid then some 0 else f.size

/-- `size()` of each class; `none` is an exception -/
def Ty.size : Ty → Option ℕ
  | .void => some 0
  | .pt p => some p.size
  | .ring .aby3A f => f.size.map (· * 2)
  | .ring .aby3O f => f.size.map (· * 2)
  | .ring .aby3OP f => f.size
  | .ring .aby3P f => f.size.map (· * 2)
  | .ring .swiftA f => if f = .invalid then some 0 else f.size.map (· * 3)
  | .ring _ f => ringSize f
  | .gfmp f _ _ => ringSize f
  | .priv f _ => f.size
  | .bshr .swift f _ => if f = .invalid then some 0 else f.size.map (· * 3)
  | .bshr _ f _ => ringSize f
  | .aby3B b _ => some (b.size * 2)
  | .spdz2kA f _ => f.size.map (· * 2)
  | .spdz2kB _ _ f k => f.size.map (· * 2 * k)

/-- `equals` of each class, for types of the same id (`Type::operator==`, `core/type.cc:33-38`) -/
def Ty.equals : Ty → Ty → Bool
  | .void, .void => true
  | .pt p, .pt q => p = q
  | .ring _ f, .ring _ g => f = g
  | .gfmp f e p, .gfmp g d q => f = g && e = d && p = q
  | .priv f o, .priv g q => f = g && o = q
  | .bshr _ f n, .bshr _ g m => f = g && n = m
  | .aby3B b n, .aby3B c m => b = c && n = m
  | .spdz2kA f _, .spdz2kA g _ => f = g
  | .spdz2kB b n f _, .spdz2kB c m g _ => b = c && n = m && f = g
  | _, _ => false

/-- `Type::operator==` -/
def Ty.eq (a b : Ty) : Bool := a.kind.id = b.kind.id && a.equals b

/-- decimal printing of `fmt` -/
def natStr (n : ℕ) : Str := Nat.toDigits 10 n
def intStr (n : ℤ) : Str := if n < 0 then '-' :: natStr n.natAbs else natStr n.natAbs

/-- `toString` of each class: `core/type.cc:120-144`, `pv2k.cc:1073-1075`, `semi2k/type.cc:44-46` (same text in cheetah,
    securenn and swift), `aby3/type.cc:44-46`, `spdz2k/type.cc:50-53` -/
def Ty.detail : Ty → Str
  | .void => []
  | .pt p => p.name
  | .ring _ f => f.name
  | .gfmp f e _ => f.name ++ ',' :: natStr e
  | .priv f o => f.name ++ ',' :: intStr o
  | .bshr _ f n => f.name ++ ',' :: natStr n
  | .aby3B b n => b.name ++ ',' :: natStr n
  | .spdz2kA f _ => f.name
  | .spdz2kB b n f _ => b.name ++ ',' :: (natStr n ++ ',' :: f.name)

/-- `Type::toString` (`core/type.cc:45-47`) -/
def Ty.str (t : Ty) : Str := t.kind.id ++ '<' :: (t.detail ++ ['>'])

/-! ## Parsing -/

/-- `s.substr(0, s.find_first_of(c))` -/
def before (c : Char) (s : Str) : Str := s.takeWhile (· ≠ c)
/-- `s.substr(s.find_first_of(c) + 1)`; without an occurrence `npos + 1` is `0` -/
def after (c : Char) (s : Str) : Str := if c ∈ s then (s.dropWhile (· ≠ c)).drop 1 else s
/-- `s.substr(s.find_last_of(c) + 1)` -/
def afterLast (c : Char) (s : Str) : Str := (s.reverse.takeWhile (· ≠ c)).reverse
/-- `find_last_of(c)` used as a count of characters -/
def lastPos (c : Char) (s : Str) : ℕ := if c ∈ s then s.length - 1 - (afterLast c s).length else s.length

/-- the digits read by `strtoul` -/
def leadingDigits (s : Str) : Option ℕ :=
  let d := s.takeWhile Char.isDigit
  if d = [] then none else some (Nat.ofDigitChars 10 d 0)

/-- `std::stoul`; leading white space is not modelled -/
def stoul (s : Str) : Option ℕ :=
  match s with
  | '-' :: r => (leadingDigits r).bind fun n => if n < 2 ^ 64 then some ((2 ^ 64 - n) % 2 ^ 64) else none
  | '+' :: r => (leadingDigits r).bind fun n => if n < 2 ^ 64 then some n else none
  | r => (leadingDigits r).bind fun n => if n < 2 ^ 64 then some n else none

/-- `std::stoll`; leading white space is not modelled -/
def stoll (s : Str) : Option ℤ :=
  match s with
  | '-' :: r => (leadingDigits r).bind fun n => if n ≤ 2 ^ 63 then some (-(n : ℤ)) else none
  | '+' :: r => (leadingDigits r).bind fun n => if n < 2 ^ 63 then some (n : ℤ) else none
  | r => (leadingDigits r).bind fun n => if n < 2 ^ 63 then some (n : ℤ) else none

/-- default construction followed by `fromString`: `core/type.cc:111-139`, `pv2k.cc:1063-1071`, `semi2k/type.cc:34-42`,
    `aby3/type.cc:34-42`, `spdz2k/type.cc:35-48` -/
def Kind.parse (k : Kind) (d : Str) : Option Ty :=
  match k with
  | .void => if d = [] then some .void else none
  | .pt => (castPt d).map .pt
  | .ring c => (castFt d).map (.ring c)
  | .gfmp => do
    let f ← castFt (before ',' d)
    let e ← stoul (after ',' d)
    if e < 128 then some (.gfmp f e (2 ^ e - 1)) else none
  | .priv => do
    let f ← castFt (before ',' d)
    let o ← stoll (after ',' d)
    some (.priv f o)
  | .bshr c => do
    let f ← castFt (before ',' d)
    let n ← stoul (after ',' d)
    some (.bshr c f n)
  | .aby3B => do
    let b ← castPt (before ',' d)
    let n ← stoul (after ',' d)
    some (.aby3B b n)
  | .spdz2kA => (castFt d).map fun f => .spdz2kA f false
  | .spdz2kB => do
    let b ← castPt (before ',' d)
    let n ← stoul ((after ',' d).take (lastPos ',' d))
    let f ← castFt (afterLast ',' d)
    some (.spdz2kB b n f 0)

/-! ## The registry -/

/-- `TypeContext::creators_` (`core/type.h:431-466`): id to creator; the creator is named by its class -/
abbrev Ctx := Str → Option Kind

/-- `addType`: a later registration of the same id replaces the earlier one -/
def Ctx.add (m : Ctx) (k : Kind) : Ctx := Function.update m k.id (some k)

def Ctx.addTypes (m : Ctx) (ks : List Kind) : Ctx := ks.foldl Ctx.add m

/-- The protocols' `registerTypes`; each one registers `Pub2kTy` and `Priv2kTy` first -/
inductive Proto where
  | ref2k | semi2k | aby3 | cheetah | securenn | swift | spdz2k
deriving DecidableEq, Repr

def Proto.kinds : Proto → List Kind
  | .ref2k => [.ring .pub2k, .priv, .ring .ref2kS]
  | .semi2k => [.ring .pub2k, .priv, .ring .semi2kA, .bshr .semi2k, .ring .semi2kP]
  | .aby3 => [.ring .pub2k, .priv, .ring .aby3A, .aby3B, .ring .aby3O, .ring .aby3OP, .ring .aby3P]
  | .cheetah => [.ring .pub2k, .priv, .ring .cheetahA, .bshr .cheetah]
  | .securenn => [.ring .pub2k, .priv, .ring .securennA, .bshr .securenn]
  | .swift => [.ring .pub2k, .priv, .ring .swiftA, .bshr .swift, .ring .swiftP]
  | .spdz2k => [.ring .pub2k, .priv, .spdz2kA, .spdz2kB]

/-- registered by the constructor of `TypeContext` (`core/type.h:436-439`) -/
def baseKinds : List Kind := [.void, .pt, .ring .ring, .gfmp]

/-- the registry after the protocols `ps` were created, in this order -/
def registry (ps : List Proto) : Ctx :=
  ps.foldl (fun m p => m.addTypes p.kinds) (Ctx.addTypes (fun _ => none) baseKinds)

/-- `Type::fromString` (`core/type.cc:91-109`); the constructor of `Type` asks for the size -/
def fromString (m : Ctx) (repr : Str) : Option Ty := do
  let keyword := before '<' repr
  let details := after '<' repr
  guard (keyword ≠ [])
  guard (details.getLast? = some '>')
  let k ← m keyword
  let t ← k.parse details.dropLast
  let _ ← t.size
  some t

/-- The types that can exist: the size is defined (the constructor of `Type` asks for it) and the members have the ranges of
    their C++ types -/
def Ty.Valid (t : Ty) : Prop :=
  t.size.isSome ∧
    match t with
    | .gfmp f e p => f.mpExp = some e ∧ p = 2 ^ e - 1
    | .priv _ o => -2 ^ 63 ≤ o ∧ o < 2 ^ 63
    | .bshr _ _ n => n < 2 ^ 64
    | .aby3B _ n => n < 2 ^ 64
    | .spdz2kB _ n f k => n < 2 ^ 64 ∧ f.size.map (· * 8 / 2) = some k
    | _ => True

end Spu.Model.Ty

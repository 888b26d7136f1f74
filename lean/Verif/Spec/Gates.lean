import Verif.Model.Circuits
import Mathlib.Data.Nat.Size

set_option autoImplicit false

/-!
# What correct gates are

`Ok Inv m P`: from every state satisfying `Inv`, `m` does not throw, ends in a state satisfying `Inv`
and returns a value satisfying `P`.

`Sound C Inv Rep`: `Rep a x` says that share `a` stands for the `w`-bit word `x`.  Every gate applied to
shares of `x`, `y` gives a share of the word operation on `x`, `y`, with a declared bit count that is
computed from the declared counts; a represented word is always below `2 ^ (declared count)`.
Shifts need only be correct where every protocol defines them: aby3 stores a share in the smallest word
that holds its declared bits (narrow words promoted to 32 bits), and C++ does not define a shift by the
word width or more.
-/

namespace Spu.Spec
open Spu.Model.Circ Spu.Model.Bits

/-- total correctness of a kernel with respect to an invariant of the state -/
def Ok {σ α : Type} (Inv : σ → Prop) (m : M σ α) (P : α → Prop) : Prop :=
  ∀ s, Inv s → ∃ a s', m s = some (a, s') ∧ Inv s' ∧ P a

/-- number of bits needed to write `p` -/
def bitWidth {w : ℕ} (p : BitVec w) : ℕ := Nat.size p.toNat

/-- the carry out of the `k` low bits of `x + y` -/
def carryOut (x y k : ℕ) : ℕ := (x % 2 ^ k + y % 2 ^ k) / 2 ^ k

structure Sound {σ T : Type} {w : ℕ} (C : Gates σ T w) (Inv : σ → Prop) (Rep : T → BitVec w → Prop) :
    Prop where
  nb_le : ∀ {a x}, Rep a x → C.nb a ≤ w
  lt : ∀ {a x}, Rep a x → x.toNat < 2 ^ C.nb a
  xor : ∀ {a b x y}, Rep a x → Rep b y →
    Ok Inv (C.xorBB a b) (fun c => Rep c (x ^^^ y) ∧ C.nb c = max (C.nb a) (C.nb b))
  and : ∀ {a b x y}, Rep a x → Rep b y →
    Ok Inv (C.andBB a b) (fun c => Rep c (x &&& y) ∧ C.nb c = min (C.nb a) (C.nb b))
  andP : ∀ {a x} (p : BitVec w), Rep a x →
    Ok Inv (C.andBP a p) (fun c => Rep c (x &&& p) ∧ C.nb c = min (C.nb a) (bitWidth p))
  shl : ∀ {a x k}, Rep a x → k < w → 0 < C.nb a ∨ k < 32 →
    Ok Inv (C.lshift a k) (fun c => Rep c (x <<< k) ∧ C.nb c = min (C.nb a + k) w)
  shr : ∀ {a x k}, Rep a x → k < w → k < C.nb a ∨ k < 32 →
    Ok Inv (C.rshift a k) (fun c => Rep c (x >>> k) ∧ C.nb c = C.nb a - k)
  deintl : ∀ {a x s m r}, Rep a x → C.nb a = 2 ^ m → bitDeintl x s (2 ^ m) = some r →
    Ok Inv (C.bitdeintl a s) (fun c => Rep c r ∧ C.nb c = C.nb a)
  intl : ∀ {a x s m r}, Rep a x → C.nb a = 2 ^ m → bitIntl x s (2 ^ m) = some r →
    Ok Inv (C.bitintl a s) (fun c => Rep c r ∧ C.nb c = C.nb a)

/-- correct basic blocks for the circuits of `mpc/utils/circuits.h` -/
structure CbbSound {σ T : Type} (w : ℕ) (C : CBB σ T) (Inv : σ → Prop) (Rep : T → BitVec w → Prop) :
    Prop where
  xor : ∀ {a b x y}, Rep a x → Rep b y → Ok Inv (C.xor a b) (fun c => Rep c (x ^^^ y))
  and : ∀ {a b x y}, Rep a x → Rep b y → Ok Inv (C.and a b) (fun c => Rep c (x &&& y))
  shl : ∀ {a x k}, Rep a x → k < w → Ok Inv (C.lshift a k) (fun c => Rep c (x <<< k))
  shr : ∀ {a x k}, Rep a x → k < w → Ok Inv (C.rshift a k) (fun c => Rep c (x >>> k))
  init : ∀ {a x} (v : BitVec 128), Rep a x → Ok Inv (C.initLike a v) (fun c => Rep c (v.setWidth w))
  setNbits : ∀ {a x k}, Rep a x → x.toNat < 2 ^ k → Ok Inv (C.setNbits a k) (fun c => Rep c x)

end Spu.Spec

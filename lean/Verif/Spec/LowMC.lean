import Mathlib.Data.ZMod.Basic
import Mathlib.Data.Matrix.Mul

set_option autoImplicit false

/-!
# What LowMC is

Bits are elements of the field of two elements, words are vectors of bits, the cipher is written with matrices and the
algebraic form of the S-box (Albrecht, Rechberger, Schneider, Tiessen, Zohner: Ciphers for MPC and FHE).
-/

namespace Spu.Spec.LowMC

/-- the bits of a word, least significant first -/
def gfBits {s : ℕ} (x : BitVec s) : Fin s → ZMod 2 := fun j => if x.getLsbD j then 1 else 0

/-- the binary matrix whose rows are the first `n` words -/
def matOf {s : ℕ} (n : ℕ) (m : ℕ → BitVec s) : Matrix (Fin n) (Fin s) (ZMod 2) := fun i => gfBits (m i)

/-- bit `i`, zero outside the word -/
def gfBit {w : ℕ} (x : Fin w → ZMod 2) (i : ℕ) : ZMod 2 := if h : i < w then x ⟨i, h⟩ else 0

/-- the layer of S-boxes: `(a, b, c) ↦ (a + bc, a + b + ac, a + b + c + ab)` on the triples of the lowest `3 * boxes` bits,
`c` the lowest bit of a triple; the other bits are kept -/
def sboxLayer {w : ℕ} (boxes : ℕ) (x : Fin w → ZMod 2) : Fin w → ZMod 2 := fun t =>
  let i := t.val / 3
  let a := gfBit x (3 * i + 2)
  let b := gfBit x (3 * i + 1)
  let c := gfBit x (3 * i)
  if t.val < 3 * boxes then
    if t.val % 3 = 2 then a + b * c else if t.val % 3 = 1 then a + b + a * c else a + b + c + a * b
  else x t

/-- LowMC with linear layers `L`, constants `C` and key matrices `K` -/
def lowmc {w k : ℕ} (boxes : ℕ) (L : ℕ → Matrix (Fin w) (Fin w) (ZMod 2)) (C : ℕ → Fin w → ZMod 2)
    (K : ℕ → Matrix (Fin w) (Fin k) (ZMod 2)) (key : Fin k → ZMod 2) (x : Fin w → ZMod 2) : ℕ → Fin w → ZMod 2
  | 0 => x + (K 0).mulVec key
  | r + 1 => (L r).mulVec (sboxLayer boxes (lowmc boxes L C K key x r)) + C r + (K (r + 1)).mulVec key

end Spu.Spec.LowMC

import Verif.Spec.Gates
import Verif.Model.CheetahOt

set_option autoImplicit false

/-!
# What an oblivious transfer must deliver

`OtOk ot Inv`: started in a state satisfying `Inv`, with legal sizes, every transfer ends, keeps `Inv`, and delivers
what its name says.  Nothing is said about the values of the random messages, choices and masks.
-/

namespace Spu.Spec
open Spu.Model.Circ Spu.Model.CheetahOt

/-- numbers of messages per instance that the hash of `mitccrh_exp.h` supports -/
def otSizes : List ℕ := [2, 4, 8, 16, 256]

structure OtOk {σ : Type} {w : ℕ} (ot : Ot σ w) (Inv : σ → Prop) : Prop where
  /-- random messages of `bw` bits, random choice -/
  rmrc : ∀ s {bw n}, 0 < bw → bw ≤ 8 → 0 < n → Ok Inv (ot.rmrc s bw n) fun r =>
    ∀ i, i < n → (r.m0 i).toNat < 2 ^ bw ∧ (r.m1 i).toNat < 2 ^ bw ∧
      (r.ch i = 0 ∧ r.rc i = r.m0 i ∨ r.ch i = 1 ∧ r.rc i = r.m1 i)
  /-- the receiver's output minus the sender's is the chosen multiple of the correlation, modulo `2 ^ bw` -/
  camcc : ∀ s {bw n} corr ch, bw ≤ w → 0 < n → Ok Inv (ot.camcc s bw n corr ch) fun r =>
    ∀ i, i < n → (r.2 i - r.1 i).toNat % 2 ^ (if bw = 0 then w else bw) =
      (if ch i = 0 then 0 else corr i).toNat % 2 ^ (if bw = 0 then w else bw)
  /-- the same, the modulus losing one bit per level -/
  collapse : ∀ s {bw level n} corr ch, 0 < bw → bw ≤ w → 0 < level → level ≤ bw → 0 < n → n % level = 0 →
    Ok Inv (ot.collapse s bw level n corr ch) fun r =>
      ∀ i, i < n → (r.2 i - r.1 i).toNat % 2 ^ (bw - i / (n / level)) =
        (if ch i = 0 then 0 else corr i).toNat % 2 ^ (bw - i / (n / level))
  /-- the chosen one of `N` messages, modulo `2 ^ bw` -/
  cmcc : ∀ s {N bw n} msg ch, N ∈ otSizes → 0 < bw → bw ≤ 8 → 0 < n → (∀ i, i < n → (ch i).toNat < N) →
    Ok Inv (ot.cmcc s N bw n msg ch) fun r => ∀ i, i < n → r i = BitVec.ofNat 8 ((msg (i * N + (ch i).toNat)).toNat % 2 ^ bw)
  fill : ∀ n, Ok Inv (ot.fill n) fun _ => True
  randBit : ∀ n, Ok Inv (ot.randBit n) fun r => ∀ i, i < n → r i = 0 ∨ r i = 1

section
variable {w : ℕ}

/-- the value of a boolean share -/
def valB (x : Share w) (i : ℕ) : BitVec w := x 0 i ^^^ x 1 i

/-- the value of an additive share -/
def valA (x : Share w) (i : ℕ) : BitVec w := x 0 i + x 1 i

/-- the `k` low bits -/
def lowBits (k : ℕ) (v : BitVec w) : BitVec w := BitVec.ofNat w (v.toNat % 2 ^ k)

end

end Spu.Spec

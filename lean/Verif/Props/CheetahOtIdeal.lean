import Verif.Props.CheetahOt

set_option autoImplicit false

/-!
# A functionality that meets `OtOk`, and runs of the protocols on it

The state is a counter from which all "random" values are taken.
-/

namespace Spu.Props
open Spu.Model.Circ Spu.Model.CheetahZip Spu.Model.CheetahOt Spu.Spec Spu.Lemmas

/-- the messages, choices and masks are arbitrary functions of the counter -/
def idealOt (w : ℕ) : Ot ℕ w where
  rmrc _ bw _ := fun s =>
    let m0 := fun i => BitVec.ofNat 8 ((s + 3 * i + 1) % 2 ^ bw)
    let m1 := fun i => BitVec.ofNat 8 ((s * i + 2) % 2 ^ bw)
    let b := fun i => (s + i) % 3 % 2
    some (⟨m0, m1, fun i => BitVec.ofNat 8 (b i), fun i => if b i = 0 then m0 i else m1 i⟩, s + 1)
  camcc _ _ _ corr ch := fun s =>
    let a := fun i => BitVec.ofNat w (77 * s + 5 * i + 13)
    some ((a, fun i => a i + if ch i = 0 then 0 else corr i), s + 1)
  collapse _ _ _ _ corr ch := fun s =>
    let a := fun i => BitVec.ofNat w (91 * s + 7 * i + 29)
    some ((a, fun i => a i + if ch i = 0 then 0 else corr i), s + 1)
  cmcc _ N bw _ msg ch := fun s =>
    some (fun i => BitVec.ofNat 8 ((msg (i * N + (ch i).toNat)).toNat % 2 ^ bw), s + 1)
  fill _ := fun s => some (fun i => BitVec.ofNat 8 (37 * s + 11 * i + 1), s + 1)
  randBit _ := fun s => some (fun i => BitVec.ofNat w ((s + i) % 2), s + 1)

/-- the hypothesis of the theorems on the protocols can be met -/
theorem idealOt_ok (w : ℕ) : OtOk (idealOt w) fun _ => True where
  rmrc := by
    intro p bw n h0 h8 hn s _
    refine ⟨_, _, rfl, trivial, fun i hi => ?_⟩
    have lt : ∀ v : ℕ, (BitVec.ofNat 8 (v % 2 ^ bw)).toNat < 2 ^ bw := by
      intro v
      rw [BitVec.toNat_ofNat]
      exact lt_of_le_of_lt (Nat.mod_le _ _) (Nat.mod_lt _ (by positivity))
    refine ⟨lt _, lt _, ?_⟩
    simp only
    rcases Nat.mod_two_eq_zero_or_one ((s + i) % 3) with h | h
    · left; simp [h]
    · right; simp [h]
  camcc := by
    intro p bw n corr ch hb hn s _
    refine ⟨_, _, rfl, trivial, fun i hi => ?_⟩
    simp only [add_sub_cancel_left]
  collapse := by
    intro p bw level n corr ch _ _ _ _ _ _ s _
    refine ⟨_, _, rfl, trivial, fun i hi => ?_⟩
    simp only [add_sub_cancel_left]
  cmcc := by
    intro p N bw n msg ch _ _ _ _ _ s _
    exact ⟨_, _, rfl, trivial, fun i hi => rfl⟩
  fill := fun n s _ => ⟨_, _, rfl, trivial, trivial⟩
  randBit := by
    intro n s _
    refine ⟨_, _, rfl, trivial, fun i hi => ?_⟩
    rcases Nat.mod_two_eq_zero_or_one (s + i) with h | h <;> simp only [h]
    · left; rfl
    · right; rfl

/-- run from a counter and look at the value of element `i` -/
def peek {w : ℕ} {α : Type} (m : M ℕ α) (s : ℕ) (f : α → BitVec w) : Option ℕ := (m s).map fun r => (f r.1).toNat

def otX : Share 16 := fun p i => if p = 0 then BitVec.ofNat 16 (12345 * i + 77) else BitVec.ofNat 16 (54321 * i + 99)
def otY : Share 16 := fun p i => if p = 0 then BitVec.ofNat 16 (2345 * i + 7007) else BitVec.ofNat 16 (4321 * i + 9009)

example : peek (bitwiseAnd (idealOt 16) 9 3 otX otY) 5 (fun z => valB z 2) = some ((valB otX 2 &&& valB otY 2).toNat % 512) := by decide +kernel
example : (valB otX 2 &&& valB otY 2).toNat % 512 = 0 → False := by decide +kernel
example : peek (corrAnd (idealOt 16) 3 otX otY otX) 5 (fun z => valB z.2 1) = some ((valB otX 1).toNat % 2) := by decide +kernel
example : peek (b2a (idealOt 16) 7 3 otX) 1 (fun z => valA z 1) = some ((valB otX 1).toNat % 128) := by decide +kernel
example : peek (b2aSized (idealOt 16) 5 3 otX) 1 (fun z => lowBits 5 (valA z 1)) = some ((valB otX 1).toNat % 2) := by decide +kernel
example : peek (multiplexer (idealOt 16) 3 otX otY) 1 (fun z => valA z 1) =
    some (if (valB otY 1).getLsbD 0 then (valA otX 1).toNat else 0) := by decide +kernel
example : peek (multiplexer (idealOt 16) 3 otX fun p i => if p = 0 then BitVec.ofNat 16 i else 0) 1 (fun z => valA z 1) = some (valA otX 1).toNat := by
  decide +kernel
example : peek (privateMulx (idealOt 16) 1 3 otX fun i => BitVec.ofNat 16 i) 1 (fun z => valA z 1) = some (valA otX 1).toNat := by decide +kernel
example : peek (privateMulx (idealOt 16) 0 3 otX fun i => BitVec.ofNat 16 i) 1 (fun z => valA z 2) = some 0 := by decide +kernel
example : (peek (randBits (idealOt 16) 3) 1 fun z => valA z 1) = some 1 := by decide +kernel

/-- `B2ASingleBitWithSize` to a single bit is refused -/
theorem c52_b2aSized_one {σ : Type} {w : ℕ} (ot : Ot σ w) (n : ℕ) (x : Share w) (s : σ) : b2aSized ot 1 n x s = none := by
  simp [b2aSized, enforce, Bind.bind, StateT.bind, failure, StateT.failure, Alternative.failure]

/-- and to any other size below the ring it shares the low bit -/
theorem c52_b2aSized {σ : Type} {w : ℕ} {ot : Ot σ w} {Inv : σ → Prop} (hO : OtOk ot Inv) {bw n : ℕ} (h1 : 1 < bw) (hb : bw < w) (hn : 0 < n) (x : Share w) :
    Ok Inv (b2aSized ot bw n x) fun z => ∀ i, i < n →
      (∀ p, (z p i).toNat < 2 ^ bw) ∧ lowBits bw (valA z i) = lowBits bw (valB x i &&& 1) := by
  unfold b2aSized
  refine Ok.enforce (by simp [h1, hb]) ?_
  have := c52_singleB2A hO (by omega) hb.le hn x
  rwa [if_neg (by omega)] at this

end Spu.Props

import Verif.Lemmas.CheetahOt
import Mathlib.Data.List.GetD
import Mathlib.Tactic.Abel

set_option autoImplicit false

/-!
# C52 — protocols of cheetah on top of oblivious transfer

For every oblivious transfer that delivers what its interface promises (`OtOk`), the protocols of
`basic_ot_prot.cc` end and return shares of the right values, for every choice of the random messages.
-/

namespace Spu.Props
open Spu.Lemmas Spu.Spec Spu.Model.Circ Spu.Model.CheetahOt Spu.Model.CheetahZip

variable {σ : Type} {w : ℕ} {Inv : σ → Prop} {ot : Ot σ w}

theorem andTriple_ok (hO : OtOk ot Inv) {n nbits : ℕ} (hn : 0 < n) (h1 : 1 ≤ nbits) (hw : nbits ≤ w) :
    Ok Inv (andTriple ot n nbits) fun t => ∀ i, i < n →
      (∀ b, nbits ≤ b → ∀ p, (t.1 p i).getLsbD b = false ∧ (t.2.1 p i).getLsbD b = false) ∧
      ∀ b, ((t.2.2 0 i).getLsbD b ^^ (t.2.2 1 i).getLsbD b) =
        (((t.1 0 i).getLsbD b ^^ (t.1 1 i).getLsbD b) && ((t.2.1 0 i).getLsbD b ^^ (t.2.1 1 i).getLsbD b)) := by
  have hnn : 0 < n * nbits := Nat.mul_pos hn h1
  unfold andTriple
  refine Ok.enforce (by simpa using hn) (Ok.enforce (by simp [h1, hw]) ?_)
  refine Ok.bind (hO.rmrc 1 (by omega) (by omega) hnn) fun r10 h10 => ?_
  refine Ok.bind (hO.rmrc 0 (by omega) (by omega) hnn) fun r01 h01 => ?_
  refine Ok.pure fun i hi => ⟨fun b hb p => ?_, fun b => ?_⟩
  · simp only [packBits_bit hw]
    simp [show ¬ b < nbits by omega]
  · simp only [packBits_bit hw, if_true, show ¬ (1 : Fin 2) = 0 by decide, if_false]
    by_cases hb : b < nbits
    · have hj := idx_lt hi (show nbits - 1 - b < nbits by omega)
      have e0 := rot_bit (h10 _ hj).2.2 0
      have e1 := rot_bit (h01 _ hj).2.2 0
      simp only [hb, decide_true, Bool.true_and, BitVec.getLsbD_xor, BitVec.getLsbD_and]
      generalize (r10.ch (i * nbits + (nbits - 1 - b))).getLsbD 0 = c at *
      generalize (r10.rc (i * nbits + (nbits - 1 - b))).getLsbD 0 = d at *
      generalize (r10.m0 (i * nbits + (nbits - 1 - b))).getLsbD 0 = u at *
      generalize (r10.m1 (i * nbits + (nbits - 1 - b))).getLsbD 0 = v at *
      generalize (r01.ch (i * nbits + (nbits - 1 - b))).getLsbD 0 = c' at *
      generalize (r01.rc (i * nbits + (nbits - 1 - b))).getLsbD 0 = d' at *
      generalize (r01.m0 (i * nbits + (nbits - 1 - b))).getLsbD 0 = u' at *
      generalize (r01.m1 (i * nbits + (nbits - 1 - b))).getLsbD 0 = v' at *
      revert e0 e1
      cases c <;> cases d <;> cases u <;> cases v <;> cases c' <;> cases d' <;> cases u' <;> cases v' <;> decide
    · simp [hb]

/-- C52: `BitwiseAnd` returns shares of the conjunction of the declared bits. -/
theorem c52_and (hO : OtOk ot Inv) {n nbits : ℕ} (hn : 0 < n) (h1 : 1 ≤ nbits) (hw : nbits ≤ w) (x y : Share w) :
    Ok Inv (bitwiseAnd ot nbits n x y) fun z => ∀ i, i < n → valB z i = lowBits nbits (valB x i &&& valB y i) := by
  unfold bitwiseAnd
  refine Ok.bind (andTriple_ok hO hn h1 hw) ?_
  rintro ⟨a, b, c⟩ ht
  obtain ⟨xa, hxa, hx⟩ := open_xor h1 hw hn fun p i => x p i ^^^ a p i
  obtain ⟨yb, hyb, hy⟩ := open_xor h1 hw hn fun p i => y p i ^^^ b p i
  refine Ok.liftO hxa (Ok.liftO hyb (Ok.pure fun i hi => ?_))
  obtain ⟨hz, hc⟩ := ht i hi
  have := triple_word (x0 := x 0 i) (x1 := x 1 i) (y0 := y 0 i) (y1 := y 1 i) (fun bb hb => ⟨(hz bb hb 0).1, (hz bb hb 1).1⟩)
    (fun bb hb => ⟨(hz bb hb 0).2, (hz bb hb 1).2⟩) hc
  unfold valB
  simp only [if_true, show ¬ (1 : Fin 2) = 0 by decide, if_false, hx i hi, hy i hi]
  exact this

theorem corrTriple_ok (hO : OtOk ot Inv) (hw : 0 < w) {n : ℕ} (hn : 0 < n) :
    Ok Inv (corrAndTriple ot n) fun t => ∀ i, i < n →
      (∀ b, 1 ≤ b → ∀ p, (t.1 p i).getLsbD b = false ∧ (t.2.1 p i).getLsbD b = false ∧ (t.2.2.2.1 p i).getLsbD b = false) ∧
      (∀ b, ((t.2.2.1 0 i).getLsbD b ^^ (t.2.2.1 1 i).getLsbD b) =
        (((t.1 0 i).getLsbD b ^^ (t.1 1 i).getLsbD b) && ((t.2.1 0 i).getLsbD b ^^ (t.2.1 1 i).getLsbD b))) ∧
      ∀ b, ((t.2.2.2.2 0 i).getLsbD b ^^ (t.2.2.2.2 1 i).getLsbD b) =
        (((t.1 0 i).getLsbD b ^^ (t.1 1 i).getLsbD b) && ((t.2.2.2.1 0 i).getLsbD b ^^ (t.2.2.2.1 1 i).getLsbD b)) := by
  have one : ∀ (v : BitVec 8) (b : ℕ), ((v &&& 1).setWidth w).getLsbD b = (decide (b = 0) && v.getLsbD 0) := by
    intro v b
    rw [BitVec.getLsbD_setWidth, BitVec.getLsbD_and, show (1 : BitVec 8) = 1#8 from rfl, BitVec.getLsbD_one]
    rcases b with _ | b <;> simp [hw]
  unfold corrAndTriple
  refine Ok.enforce (by simpa using hn) ?_
  refine Ok.bind (hO.rmrc 1 (by omega) (by omega) hn) fun r10 h10 => ?_
  refine Ok.bind (hO.rmrc 0 (by omega) (by omega) hn) fun r01 h01 => ?_
  refine Ok.pure fun i hi => ⟨fun b hb p => ?_, fun b => ?_, fun b => ?_⟩
  · simp only [one]
    simp [show b ≠ 0 by omega]
  · simp only [one, if_true, show ¬ (1 : Fin 2) = 0 by decide, if_false]
    have e0 := rot_bit (h10 _ hi).2.2 0
    have e1 := rot_bit (h01 _ hi).2.2 0
    simp only [BitVec.getLsbD_xor, BitVec.getLsbD_and, BitVec.getLsbD_or, BitVec.getLsbD_shiftLeft]
    by_cases hb : b = 0
    · simp only [hb, decide_true, Bool.true_and, show (0 : ℕ) < 8 by omega, show (0 : ℕ) < 1 by omega, Bool.not_true, Bool.false_and, Bool.and_false, Bool.false_or]
      generalize (r10.ch i).getLsbD 0 = c at *
      generalize (r10.rc i).getLsbD 0 = d at *
      generalize (r10.m0 i).getLsbD 0 = u at *
      generalize (r10.m1 i).getLsbD 0 = v at *
      generalize (r01.ch i).getLsbD 0 = c' at *
      generalize (r01.rc i).getLsbD 0 = d' at *
      generalize (r01.m0 i).getLsbD 0 = u' at *
      generalize (r01.m1 i).getLsbD 0 = v' at *
      revert e0 e1
      cases c <;> cases d <;> cases u <;> cases v <;> cases c' <;> cases d' <;> cases u' <;> cases v' <;> decide
    · simp [hb]
  · simp only [one, if_true, show ¬ (1 : Fin 2) = 0 by decide, if_false]
    have e0 := rot_bit (h10 _ hi).2.2 1
    have e1 := rot_bit (h01 _ hi).2.2 1
    have f0 := rot_ch (h10 _ hi).2.2 (b := 1) (by omega)
    have f1 := rot_ch (h01 _ hi).2.2 (b := 1) (by omega)
    simp only [BitVec.getLsbD_xor, BitVec.getLsbD_and, BitVec.getLsbD_or, BitVec.getLsbD_shiftLeft, BitVec.getLsbD_ushiftRight]
    by_cases hb : b = 0
    · simp only [hb, decide_true, Bool.true_and, show (1 : ℕ) + 0 < 8 by omega, show ¬ (1 + 0 : ℕ) < 1 by omega, decide_false, Bool.not_false, Bool.false_and,
        Bool.and_false, Bool.false_or, Nat.add_zero, Nat.sub_self, f0, f1, Bool.or_false]
      generalize (r10.ch i).getLsbD 0 = c at *
      generalize (r10.rc i).getLsbD 1 = d at *
      generalize (r10.m0 i).getLsbD 1 = u at *
      generalize (r10.m1 i).getLsbD 1 = v at *
      generalize (r01.ch i).getLsbD 0 = c' at *
      generalize (r01.rc i).getLsbD 1 = d' at *
      generalize (r01.m0 i).getLsbD 1 = u' at *
      generalize (r01.m1 i).getLsbD 1 = v' at *
      revert e0 e1
      cases c <;> cases d <;> cases u <;> cases v <;> cases c' <;> cases d' <;> cases u' <;> cases v' <;> decide
    · simp [hb]

/-- C52: `CorrelatedBitwiseAnd` returns one-bit shares of both conjunctions. -/
theorem c52_corrAnd (hO : OtOk ot Inv) (hw : 0 < w) {n : ℕ} (hn : 0 < n) (x y0 y1 : Share w) :
    Ok Inv (corrAnd ot n x y0 y1) fun z => ∀ i, i < n →
      valB z.1 i = lowBits 1 (valB x i &&& valB y0 i) ∧ valB z.2 i = lowBits 1 (valB x i &&& valB y1 i) := by
  unfold corrAnd
  refine Ok.bind (corrTriple_ok hO hw hn) ?_
  rintro ⟨a, b0, c0, b1, c1⟩ ht
  obtain ⟨xa, hxa, hx⟩ := open_xor Nat.one_pos hw hn fun p i => x p i ^^^ a p i
  obtain ⟨yb, hyb, hy⟩ := open_xor Nat.one_pos hw hn fun p i => y0 p i ^^^ b0 p i
  obtain ⟨yb', hyb', hy'⟩ := open_xor Nat.one_pos hw hn fun p i => y1 p i ^^^ b1 p i
  refine Ok.liftO hxa (Ok.liftO hyb (Ok.liftO hyb' (Ok.pure fun i hi => ?_)))
  obtain ⟨hz, hc, hc'⟩ := ht i hi
  have t0 := triple_word (x0 := x 0 i) (x1 := x 1 i) (y0 := y0 0 i) (y1 := y0 1 i) (fun bb hb => ⟨(hz bb hb 0).1, (hz bb hb 1).1⟩)
    (fun bb hb => ⟨(hz bb hb 0).2.1, (hz bb hb 1).2.1⟩) hc
  have t1 := triple_word (x0 := x 0 i) (x1 := x 1 i) (y0 := y1 0 i) (y1 := y1 1 i) (fun bb hb => ⟨(hz bb hb 0).1, (hz bb hb 1).1⟩)
    (fun bb hb => ⟨(hz bb hb 0).2.2, (hz bb hb 1).2.2⟩) hc'
  unfold valB
  simp only [if_true, show ¬ (1 : Fin 2) = 0 by decide, if_false, hx i hi, hy i hi, hy' i hi]
  exact ⟨t0, t1⟩

theorem set8_zero {v : BitVec w} (hw : 0 < w) : (v &&& 1).setWidth 8 = 0 ↔ v &&& 1 = 0 := by
  rcases bit01 v hw with h | h <;> rw [h]
  · simp
  · have h8 : ((1 : BitVec w).setWidth 8) ≠ 0 := by
      intro h
      have := congrArg (fun z : BitVec 8 => z.getLsbD 0) h
      rw [show (1 : BitVec w) = 1#w from rfl] at this
      simp [BitVec.getLsbD_setWidth, hw] at this
    have h1 : (1 : BitVec w) ≠ 0 := by
      intro h
      have := congrArg (fun z : BitVec w => z.getLsbD 0) h
      rw [show (1 : BitVec w) = 1#w from rfl] at this
      simp [hw] at this
    exact ⟨fun h => absurd h h8, fun h => absurd h h1⟩

theorem set8_back {v : BitVec w} (hw : 0 < w) : ((v &&& 1).setWidth 8).setWidth w = v &&& 1 := by
  apply BitVec.eq_of_getLsbD_eq
  intro b hb
  simp only [BitVec.getLsbD_setWidth, BitVec.getLsbD_and]
  rw [show (1 : BitVec w) = 1#w from rfl, BitVec.getLsbD_one]
  rcases b with _ | b
  · simp [hw]
  · simp

/-- the correlation taken by choice is the product with the choice bit -/
theorem chosen_mul {v c : BitVec w} (hw : 0 < w) : (if (v &&& 1).setWidth 8 = (0 : BitVec 8) then 0 else c) = c * (v &&& 1) := by
  rcases bit01 v hw with h | h
  · rw [if_pos ((set8_zero hw).2 h), h, mul_zero]
  · rw [if_neg, h, mul_one]
    intro h'
    have := (set8_zero hw).1 h'
    rw [h] at this
    have := congrArg (fun z : BitVec w => z.getLsbD 0) this
    rw [show (1 : BitVec w) = 1#w from rfl] at this
    simp [hw] at this

/-- C52: `SingleB2A` turns a shared bit into additive shares modulo `2 ^ bw`. -/
theorem c52_singleB2A (hO : OtOk ot Inv) (hw : 0 < w) {bw n : ℕ} (hb : bw ≤ w) (hn : 0 < n) (x : Share w) :
    Ok Inv (singleB2A ot bw n x) fun z => ∀ i, i < n →
      (∀ p, (z p i).toNat < 2 ^ (if bw = 0 then w else bw)) ∧
      lowBits (if bw = 0 then w else bw) (valA z i) = lowBits (if bw = 0 then w else bw) (valB x i &&& 1) := by
  unfold singleB2A
  obtain ⟨bw', hbw⟩ : ∃ b, b = if bw = 0 then w else bw := ⟨_, rfl⟩
  simp only [← hbw]
  have h0 : 0 < bw' := by rw [hbw]; split <;> omega
  have h1 : bw' ≤ w := by rw [hbw]; split <;> omega
  obtain ⟨m, hm, hlow⟩ := mask_low (w := w) h0 h1
  refine Ok.liftO hm ?_
  refine Ok.bind (hO.camcc 0 _ _ h1 hn) ?_
  rintro ⟨s, r⟩ hr
  refine Ok.pure fun i hi => ⟨fun p => ?_, ?_⟩
  · have : ∀ v : BitVec w, (v &&& m).toNat < 2 ^ bw' := fun v => by
      rw [hlow, lowBits_toNat]; exact Nat.mod_lt _ (by positivity)
    dsimp only
    split <;> exact this _
  · have hc := hr i hi
    rw [if_neg (by omega : ¬ bw' = 0)] at hc
    dsimp only at hc
    rw [chosen_mul hw] at hc
    have hc : Cong bw' (r i - s i) (-((x 0 i &&& 1) <<< 1) * (x 1 i &&& 1)) := hc
    unfold valA valB
    simp only [if_true, show ¬ (1 : Fin 2) = 0 by decide, if_false, hlow, xor_low _ _ hw]
    have : Cong bw' (lowBits bw' ((x 0 i &&& 1) - s i) + lowBits bw' ((x 1 i &&& 1) + r i))
        ((x 0 i &&& 1) + (x 1 i &&& 1) - 2 * (x 0 i &&& 1) * (x 1 i &&& 1)) := by
      refine Cong.trans (Cong.add h1 (Cong.lowBits _) (Cong.lowBits _)) ?_
      have e : (x 0 i &&& 1) - s i + ((x 1 i &&& 1) + r i) = (x 0 i &&& 1) + (x 1 i &&& 1) + (r i - s i) := by abel
      rw [e]
      refine Cong.trans (Cong.add h1 (Cong.refl _ _) hc) ?_
      have e2 : (x 0 i &&& 1) <<< 1 = 2 * (x 0 i &&& 1) := by
        rw [BitVec.shiftLeft_eq_mul_twoPow, mul_comm]
        congr 1
        apply BitVec.eq_of_toNat_eq
        simp [BitVec.toNat_twoPow]
      rw [e2]
      have : (x 0 i &&& 1) + (x 1 i &&& 1) + -(2 * (x 0 i &&& 1)) * (x 1 i &&& 1) = (x 0 i &&& 1) + (x 1 i &&& 1) - 2 * (x 0 i &&& 1) * (x 1 i &&& 1) := by ring
      rw [this]
      exact Cong.refl _ _
    unfold lowBits
    unfold Cong at this
    rw [show (BitVec.ofNat w (((x 0 i &&& 1) - s i).toNat % 2 ^ bw') + BitVec.ofNat w (((x 1 i &&& 1) + r i).toNat % 2 ^ bw')).toNat % 2 ^ bw' = _ from this]

/-- C52: bits drawn by `RandBits` are additive shares of a bit. -/
theorem c52_randBits (hO : OtOk ot Inv) (hw : 0 < w) {n : ℕ} (hn : 0 < n) :
    Ok Inv (randBits ot n) fun z => ∀ i, i < n → valA z i = 0 ∨ valA z i = 1 := by
  unfold randBits
  refine Ok.bind (hO.randBit n) fun r0 _ => Ok.bind (hO.randBit n) fun r1 _ => ?_
  refine Ok.imp (c52_singleB2A hO hw (Nat.zero_le _) hn _) fun z hz i hi => ?_
  have := (hz i hi).2
  simp only [if_true] at this
  rw [lowBits_self (BitVec.isLt _), lowBits_self (BitVec.isLt _)] at this
  rw [this]
  exact bit01 _ hw

/-- C52: `Multiplexer` returns additive shares of the message times the bit. -/
theorem c52_multiplexer (hO : OtOk ot Inv) (hw : 0 < w) {n : ℕ} (hn : 0 < n) (msg sel : Share w) :
    Ok Inv (multiplexer ot n msg sel) fun z => ∀ i, i < n → valA z i = if (valB sel i).getLsbD 0 then valA msg i else 0 := by
  unfold multiplexer
  refine Ok.bind (hO.camcc 0 _ _ (Nat.zero_le _) hn) ?_
  rintro ⟨s0, r1⟩ h0
  refine Ok.bind (hO.camcc 1 _ _ (Nat.zero_le _) hn) ?_
  rintro ⟨s1, r0⟩ h1
  refine Ok.pure fun i hi => ?_
  have c0 := h0 i hi
  have c1 := h1 i hi
  simp only [if_true] at c0 c1
  rw [chosen_mul hw] at c0 c1
  have c0 : r1 i - s0 i = _ := Cong.full c0
  have c1 : r0 i - s1 i = _ := Cong.full c1
  unfold valA
  simp only [if_true, show ¬ (1 : Fin 2) = 0 by decide, if_false]
  rw [set8_back hw] at c0 c1 ⊢
  rw [set8_back hw]
  have hsel : (if (valB sel i).getLsbD 0 then msg 0 i + msg 1 i else 0) = (msg 0 i + msg 1 i) * ((sel 0 i ^^^ sel 1 i) &&& 1) := by
    rw [and_one _ hw]
    unfold valB
    split <;> simp
  rw [hsel, xor_low _ _ hw]
  have e : msg 0 i * (sel 0 i &&& 1) - s0 i + r0 i + (msg 1 i * (sel 1 i &&& 1) - s1 i + r1 i) =
      msg 0 i * (sel 0 i &&& 1) + msg 1 i * (sel 1 i &&& 1) + (r1 i - s0 i) + (r0 i - s1 i) := by ring
  rw [e, c0, c1]
  ring

/-- C52: multiplying a share by the bit of one party. -/
theorem c52_privateMulx (hO : OtOk ot Inv) (hw : 0 < w) (owner : Fin 2) {n : ℕ} (hn : 0 < n) (msg : Share w) (sel : ℕ → BitVec w) :
    Ok Inv (privateMulx ot owner n msg sel) fun z => ∀ i, i < n → valA z i = if (sel i).getLsbD 0 then valA msg i else 0 := by
  unfold privateMulx
  refine Ok.bind (hO.camcc _ _ _ (Nat.zero_le _) hn) ?_
  rintro ⟨s, r⟩ h
  refine Ok.pure fun i hi => ?_
  have c := h i hi
  simp only [if_true] at c
  rw [chosen_mul hw] at c
  have c : r i - s i = _ := Cong.full c
  have hb : ((sel i &&& 1).setWidth 8 &&& 1).setWidth w = sel i &&& 1 := by
    rcases bit01 (sel i) hw with h | h <;> rw [h]
    · simp
    · apply BitVec.eq_of_getLsbD_eq
      intro b hb
      simp only [BitVec.getLsbD_setWidth, BitVec.getLsbD_and, show (1 : BitVec w) = 1#w from rfl, show (1 : BitVec 8) = 1#8 from rfl, BitVec.getLsbD_one]
      rcases b with _ | b <;> simp [hw]
  have hsel : ∀ v : BitVec w, (if (sel i).getLsbD 0 then v else 0) = v * (sel i &&& 1) := fun v => by
    rw [and_one _ hw]
    split <;> simp
  rw [hsel]
  unfold valA
  have cases2 : owner = 0 ∨ owner = 1 := by omega
  rcases cases2 with rfl | rfl
  · simp only [if_true, show ¬ (1 : Fin 2) = 0 by decide, if_false, hb]
    simp only [show (1 - 0 : Fin 2) = 1 by decide] at c
    have : msg 0 i * (sel i &&& 1) + r i + -s i = msg 0 i * (sel i &&& 1) + (r i - s i) := by ring
    rw [this, c]
    ring
  · simp only [if_true, show ¬ (0 : Fin 2) = 1 by decide, if_false, hb]
    simp only [show (1 - 1 : Fin 2) = 0 by decide] at c
    have : -s i + (msg 1 i * (sel i &&& 1) + r i) = msg 1 i * (sel i &&& 1) + (r i - s i) := by ring
    rw [this, c]
    ring

theorem sum_bits (v : BitVec w) {k : ℕ} (hk : k ≤ w) :
    (List.range k).foldl (fun (acc : BitVec w) (j : ℕ) => acc + (v >>> j &&& 1) <<< j) 0 = lowBits k v := by
  induction k with
  | zero =>
    apply BitVec.eq_of_toNat_eq
    rw [lowBits_toNat]
    simp [Nat.mod_one]
  | succ k ih =>
    rw [List.range_succ, List.foldl_append, List.foldl_cons, List.foldl_nil, ih (by omega)]
    rw [BitVec.add_eq_or_of_and_eq_zero]
    · apply BitVec.eq_of_getLsbD_eq
      intro b hb
      rw [BitVec.getLsbD_or, lowBits_bit, lowBits_bit, BitVec.getLsbD_shiftLeft, BitVec.getLsbD_and, BitVec.getLsbD_ushiftRight,
        show (1 : BitVec w) = 1#w from rfl, BitVec.getLsbD_one]
      rcases lt_trichotomy b k with h | rfl | h
      · simp [h, show b < k + 1 by omega]
      · simp [hb, show 0 < w by omega]
      · simp [show ¬ b < k by omega, show ¬ b < k + 1 by omega, show ¬ b - k = 0 by omega]
    · apply BitVec.eq_of_getLsbD_eq
      intro b hb
      rw [BitVec.getLsbD_and, lowBits_bit, BitVec.getLsbD_shiftLeft]
      by_cases h : b < k
      · simp [h]
      · simp [h]

theorem masks_mapM {k : ℕ} (hk : k ≤ w) : ∃ ms, (List.range k).mapM (fun j => makeBitsMask w (w - j)) = some ms ∧
    ∀ j, j < k → ∀ v : BitVec w, v &&& ms.getD j 0 = lowBits (w - j) v := by
  induction k with
  | zero => exact ⟨[], rfl, fun j hj => absurd hj (by omega)⟩
  | succ k ih =>
    obtain ⟨ms, hms, h⟩ := ih (by omega)
    obtain ⟨m, hm, hl⟩ := mask_low (w := w) (k := w - k) (by omega) (by omega)
    have hlen : ms.length = k := by
      have : ∀ (l : List ℕ) (ms : List (BitVec w)), l.mapM (fun j => makeBitsMask w (w - j)) = some ms → ms.length = l.length := by
        intro l
        induction l with
        | nil => intro ms h; cases h; rfl
        | cons a l ih =>
          intro ms h
          rw [List.mapM_cons] at h
          cases h1 : makeBitsMask w (w - a) with
          | none => rw [h1] at h; cases h
          | some u =>
            cases h2 : l.mapM (fun j => makeBitsMask w (w - j)) with
            | none => rw [h1, h2] at h; cases h
            | some us =>
              rw [h1, h2] at h
              cases h
              simp [ih us h2]
      simpa using this _ _ hms
    refine ⟨ms ++ [m], by rw [List.range_succ, List.mapM_append, hms]; simp [hm], fun j hj v => ?_⟩
    rcases Nat.lt_or_ge j k with hlt | hge
    · rw [List.getD_append _ _ _ _ (by omega)]
      exact h j hlt v
    · obtain rfl : j = k := by omega
      rw [List.getD_append_right _ _ _ _ (by omega), hlen, Nat.sub_self]
      exact hl v

/-- C52: `PackedB2A` turns packed boolean shares into additive shares of the word read from the declared bits. -/
theorem c52_packedB2A (hO : OtOk ot Inv) (hw : 0 < w) {nbits n : ℕ} (hb : nbits ≤ w) (hn : 0 < n) (x : Share w) :
    Ok Inv (packedB2A ot nbits n x) fun z => ∀ i, i < n → valA z i = lowBits (if nbits = 0 then 1 else nbits) (valB x i) := by
  unfold packedB2A
  obtain ⟨nb, hnb⟩ : ∃ b, b = if nbits = 0 then 1 else nbits := ⟨_, rfl⟩
  simp only [← hnb]
  have h0 : 0 < nb := by rw [hnb]; split <;> omega
  have h1 : nb ≤ w := by rw [hnb]; split <;> omega
  obtain ⟨ms, hms, hm⟩ := masks_mapM (w := w) h1
  refine Ok.liftO hms ?_
  refine Ok.bind (hO.collapse 0 _ _ hw le_rfl h0 h1 (Nat.mul_pos hn h0) (Nat.mul_mod_left _ _)) ?_
  rintro ⟨s, r⟩ hr
  refine Ok.pure fun i hi => ?_
  have hdiv : n * nb / nb = n := Nat.mul_div_cancel _ h0
  have step : ∀ k, k < nb → (x 0 i >>> k &&& 1) <<< k + (x 1 i >>> k &&& 1) <<< k + (r (k * n + i) <<< k - s (k * n + i) <<< k) =
      ((x 0 i ^^^ x 1 i) >>> k &&& 1) <<< k := by
    intro k hk
    have hidx : k * n + i < n * nb := by
      rw [Nat.mul_comm n nb]; exact idx_lt hk hi
    have hc := hr (k * n + i) hidx
    have d1 : (k * n + i) / n = k := by rw [Nat.add_comm, Nat.add_mul_div_right _ _ hn, Nat.div_eq_of_lt hi]; omega
    have d2 : (k * n + i) % n = i := by rw [Nat.add_comm, Nat.add_mul_mod_self_right, Nat.mod_eq_of_lt hi]
    dsimp only at hc
    rw [hdiv, d1, d2, chosen_mul hw, hm k hk] at hc
    have hc : Cong (w - k) (r (k * n + i) - s (k * n + i)) (-(2 * (x 0 i >>> k &&& 1)) * (x 1 i >>> k &&& 1)) :=
      Cong.trans hc (Cong.mul (Nat.sub_le _ _) (Cong.lowBits _) (Cong.refl _ _))
    have e := shl_congr hc
    rw [BitVec.shiftLeft_eq_mul_twoPow] at e
    have : ∀ v : BitVec w, v <<< k = v * BitVec.twoPow w k := fun v => BitVec.shiftLeft_eq_mul_twoPow v k
    simp only [this] at e ⊢
    rw [show (x 0 i ^^^ x 1 i) >>> k = x 0 i >>> k ^^^ x 1 i >>> k by exact BitVec.ushiftRight_xor_distrib .., xor_low _ _ hw]
    rw [show r (k * n + i) * BitVec.twoPow w k - s (k * n + i) * BitVec.twoPow w k = (r (k * n + i) - s (k * n + i)) * BitVec.twoPow w k by ring, e]
    ring
  unfold valA valB
  simp only [if_true, show ¬ (1 : Fin 2) = 0 by decide, if_false]
  rw [← sum_bits _ h1]
  have key : ∀ m, m ≤ nb →
      (List.range m).foldl (fun (acc : BitVec w) (k : ℕ) => acc + ((x 0 i >>> k &&& 1) - s (k * n + i)) <<< k) 0 +
      (List.range m).foldl (fun (acc : BitVec w) (k : ℕ) => acc + ((x 1 i >>> k &&& 1) + r (k * n + i)) <<< k) 0 =
      (List.range m).foldl (fun (acc : BitVec w) (k : ℕ) => acc + ((x 0 i ^^^ x 1 i) >>> k &&& 1) <<< k) 0 := by
    intro m
    induction m with
    | zero => intro _; simp
    | succ m ih =>
      intro hm
      simp only [List.range_succ, List.foldl_append, List.foldl_cons, List.foldl_nil]
      rw [← ih (by omega), ← step m (by omega)]
      have : ∀ v : BitVec w, v <<< m = v * BitVec.twoPow w m := fun v => BitVec.shiftLeft_eq_mul_twoPow v m
      simp only [this]
      ring
  exact key nb le_rfl

/-- C52: `B2A`. -/
theorem c52_b2a (hO : OtOk ot Inv) (hw : 0 < w) {nbits n : ℕ} (hb : nbits ≤ w) (hn : 0 < n) (x : Share w) :
    Ok Inv (b2a ot nbits n x) fun z => ∀ i, i < n → valA z i = lowBits (if nbits = 0 then 1 else nbits) (valB x i) := by
  unfold b2a
  split
  · rename_i h1
    refine Ok.imp (c52_singleB2A hO hw (Nat.zero_le _) hn x) fun z hz i hi => ?_
    have := (hz i hi).2
    simp only [if_true] at this
    rw [lowBits_self (BitVec.isLt _), lowBits_self (BitVec.isLt _)] at this
    rw [this, h1, if_neg (by omega)]
    obtain ⟨m, hm, hl⟩ := mask_low (w := w) Nat.one_pos hw
    apply BitVec.eq_of_getLsbD_eq
    intro b hb'
    rw [BitVec.getLsbD_and, lowBits_bit, show (1 : BitVec w) = 1#w from rfl, BitVec.getLsbD_one]
    rcases b with _ | b <;> simp [hw]
  · exact c52_packedB2A hO hw hb hn x

/-- `AndTriple` refuses an empty array and a declared bit count of zero, so the conjunction of shares that declare no bits throws. -/
theorem c52_and_zero_bits (n : ℕ) (x y : Share w) (s : σ) : bitwiseAnd ot 0 n x y s = none := by
  unfold bitwiseAnd andTriple
  by_cases h : 0 < n
  · simp [h, enforce, Bind.bind, StateT.bind, failure, StateT.failure, Alternative.failure, pure, StateT.pure]
  · simp [h, enforce, Bind.bind, StateT.bind, failure, StateT.failure, Alternative.failure]

end Spu.Props

import Verif.Model.ExpPrime
import Verif.Spec.ExpPrime
import Verif.Props.Gfmp
import Mathlib.FieldTheory.Finite.Basic

set_option autoImplicit false

/-! # C84: conversions and private products of the exponentiation over a Mersenne prime -/

namespace Spu.Props.ExpPrime
open Spu.Model.Gfmp Spu.Model.ExpPrime Spu.Spec.ExpPrime

variable {w q : ℕ}

/-! ### Ring share to exponent share -/

theorem mask_toNat {shr : ℕ} (h : shr < 128) : ((1#128 <<< shr) - 1#128).toNat = 2 ^ shr - 1 := by
  have h1 : 2 ^ shr < 2 ^ 128 := Nat.pow_lt_pow_right (by omega) h
  have h2 : 1 ≤ 2 ^ shr := Nat.one_le_two_pow
  have h3 : (1#128 <<< shr).toNat = 2 ^ shr := by
    rw [BitVec.toNat_shiftLeft, Nat.shiftLeft_eq]
    rw [Nat.mod_eq_of_lt] <;> simp <;> omega
  rw [BitVec.toNat_sub, h3]
  simp only [BitVec.toNat_ofNat]
  omega

theorem bit_toNat {shr : ℕ} (h : shr < 128) : (1#128 <<< shr).toNat = 2 ^ shr := by
  have h1 : 2 ^ shr < 2 ^ 128 := Nat.pow_lt_pow_right (by omega) h
  rw [BitVec.toNat_shiftLeft, Nat.shiftLeft_eq]
  rw [Nat.mod_eq_of_lt] <;> simp <;> omega

theorem pm1_toNat (h0 : 1 ≤ q) (hq : q < w) (hw : w ≤ 128) : ((prime w q - 1#w).setWidth 128).toNat = 2 ^ q - 2 := by
  have h1 : 2 ^ q < 2 ^ w := Nat.pow_lt_pow_right (by omega) hq
  have h2 : 2 ^ w ≤ 2 ^ 128 := Nat.pow_le_pow_right (by omega) hw
  have h3 : 2 ^ 1 ≤ 2 ^ q := Nat.pow_le_pow_right (by omega) h0
  rw [BitVec.toNat_setWidth, BitVec.toNat_sub, prime_toNat hq]
  have h4 : (1#w).toNat = 1 := by rw [BitVec.toNat_ofNat, Nat.mod_eq_of_lt]; omega
  rw [h4, show 2 ^ w - 1 + (2 ^ q - 1) = (2 ^ q - 2) + 2 ^ w by omega, Nat.add_mod_right, Nat.mod_eq_of_lt (a := 2 ^ q - 2) (by omega),
    Nat.mod_eq_of_lt (by omega)]

theorem low_toNat {shr : ℕ} (h : shr < 128) (hw : w ≤ 128) (x : BitVec w) :
    (x.setWidth 128 &&& ((1#128 <<< shr) - 1#128)).toNat = x.toNat % 2 ^ shr := by
  have h2 : 2 ^ w ≤ 2 ^ 128 := Nat.pow_le_pow_right (by omega) hw
  have := x.isLt
  rw [BitVec.toNat_and, mask_toNat h, Nat.and_two_pow_sub_one_eq_mod, BitVec.toNat_setWidth,
    Nat.mod_eq_of_lt (a := x.toNat) (by omega)]

theorem probConv_zero {shr : ℕ} (h3 : 3 ≤ q) (hs : shr < q) (hq : q < w) (hw : w ≤ 128) (x : BitVec w) :
    ∃ h, probConv q 0 shr x = some h ∧ h.toNat = x.toNat % 2 ^ shr % (2 ^ q - 2) := by
  have hp : 2 ^ 3 ≤ 2 ^ q := Nat.pow_le_pow_right (by omega) h3
  have h1 : 2 ^ q < 2 ^ w := Nat.pow_lt_pow_right (by omega) hq
  refine ⟨_, by rw [probConv, if_neg (by omega), if_neg (by omega)], ?_⟩
  rw [if_pos rfl, BitVec.toNat_setWidth, BitVec.toNat_umod, low_toNat (by omega) hw, pm1_toNat (by omega) hq hw]
  apply Nat.mod_eq_of_lt
  have := Nat.mod_lt (x.toNat % 2 ^ shr) (show 0 < 2 ^ q - 2 by omega)
  omega

theorem probConv_one {shr : ℕ} (h3 : 3 ≤ q) (hs : shr < q) (hq : q < w) (hw : w ≤ 128) (x : BitVec w) :
    ∃ h, probConv q 1 shr x = some h ∧ h.toNat = (x.toNat % 2 ^ shr + (2 ^ q - 2) - 2 ^ shr) % (2 ^ q - 2) := by
  have hp : 2 ^ 3 ≤ 2 ^ q := Nat.pow_le_pow_right (by omega) h3
  have h1 : 2 ^ q < 2 ^ w := Nat.pow_lt_pow_right (by omega) hq
  have h2 : 2 ^ w ≤ 2 ^ 128 := Nat.pow_le_pow_right (by omega) hw
  have h4 : 2 * 2 ^ shr ≤ 2 ^ q := by rw [← Nat.pow_succ']; exact Nat.pow_le_pow_right (by omega) hs
  have h5 : 2 * 2 ^ q ≤ 2 ^ w := by rw [← Nat.pow_succ']; exact Nat.pow_le_pow_right (by omega) hq
  have h6 : x.toNat % 2 ^ shr < 2 ^ shr := Nat.mod_lt _ (Nat.two_pow_pos _)
  refine ⟨_, by rw [probConv, if_neg (by omega), if_neg (by omega)], ?_⟩
  rw [if_neg (by omega), BitVec.toNat_setWidth, BitVec.toNat_umod, BitVec.toNat_sub, BitVec.toNat_add, low_toNat (by omega) hw,
    pm1_toNat (by omega) hq hw, bit_toNat (by omega)]
  have e : (2 ^ 128 - 2 ^ shr + (x.toNat % 2 ^ shr + (2 ^ q - 2)) % 2 ^ 128) % 2 ^ 128 =
      x.toNat % 2 ^ shr + (2 ^ q - 2) - 2 ^ shr := by
    rw [Nat.mod_eq_of_lt (a := x.toNat % 2 ^ shr + (2 ^ q - 2)) (by omega)]
    rw [show 2 ^ 128 - 2 ^ shr + (x.toNat % 2 ^ shr + (2 ^ q - 2)) = (x.toNat % 2 ^ shr + (2 ^ q - 2) - 2 ^ shr) + 2 ^ 128 by omega,
      Nat.add_mod_right, Nat.mod_eq_of_lt (by omega)]
  rw [e]
  apply Nat.mod_eq_of_lt
  have := Nat.mod_lt (x.toNat % 2 ^ shr + (2 ^ q - 2) - 2 ^ shr) (show 0 < 2 ^ q - 2 by omega)
  omega

/-- the low bits of a small signed number -/
theorem low_of_small {shr : ℕ} (h1 : 1 ≤ shr) (hs : shr ≤ w) (x : BitVec w) (lo : -2 ^ (shr - 1) ≤ x.toInt) (hi : x.toInt < 2 ^ (shr - 1)) :
    ((x.toNat % 2 ^ shr : ℕ) : ℤ) = if x.toInt < 0 then x.toInt + 2 ^ shr else x.toInt := by
  have e1 : ((x.toNat % 2 ^ shr : ℕ) : ℤ) = x.toInt % 2 ^ shr := by
    rw [BitVec.toInt_eq_toNat_bmod]
    push_cast
    rw [← Int.emod_emod_of_dvd ((x.toNat : ℤ).bmod (2 ^ w)) (show (2 : ℤ) ^ shr ∣ 2 ^ w from pow_dvd_pow 2 hs)]
    have : ((2 : ℤ) ^ w) = ((2 ^ w : ℕ) : ℤ) := by push_cast; rfl
    rw [this, Int.bmod_emod, Int.emod_emod_of_dvd]
    rw [← this]
    exact pow_dvd_pow 2 hs
  have e2 : (2 : ℤ) ^ shr = 2 * 2 ^ (shr - 1) := by rw [← pow_succ']; congr 1; omega
  have e3 : (0 : ℤ) < 2 ^ (shr - 1) := by positivity
  rw [e1]
  split
  · rw [← Int.add_emod_right]; exact Int.emod_eq_of_lt (by omega) (by omega)
  · exact Int.emod_eq_of_lt (by omega) (by omega)

/-- C84, conversion of a shared integer into a sharing modulo `p - 1`: right exactly when one of the two shares
is negative. -/
theorem c84_prob_conv {shr : ℕ} (h3 : 3 ≤ q) (h1 : 1 ≤ shr) (hs : shr < q) (hq : q < w) (hw : w ≤ 128) (a0 a1 : BitVec w)
    (lo0 : -2 ^ (shr - 1) ≤ a0.toInt) (hi0 : a0.toInt < 2 ^ (shr - 1)) (lo1 : -2 ^ (shr - 1) ≤ a1.toInt) (hi1 : a1.toInt < 2 ^ (shr - 1)) :
    ∃ h0 h1, probConv q 0 shr a0 = some h0 ∧ probConv q 1 shr a1 = some h1 ∧ h0.toNat < 2 ^ q - 2 ∧ h1.toNat < 2 ^ q - 2 ∧
      (((h0.toNat : ℤ) + h1.toNat ≡ a0.toInt + a1.toInt [ZMOD (2 ^ q - 2 : ℕ)]) ↔ OneNegative a0 a1) := by
  obtain ⟨h0, e0, v0⟩ := probConv_zero h3 hs hq hw a0
  obtain ⟨h1', e1, v1⟩ := probConv_one h3 hs hq hw a1
  have hp : 2 ^ 3 ≤ 2 ^ q := Nat.pow_le_pow_right (by omega) h3
  have h4 : 2 * 2 ^ shr ≤ 2 ^ q := by rw [← Nat.pow_succ']; exact Nat.pow_le_pow_right (by omega) hs
  have h2s : 0 < 2 ^ shr := Nat.two_pow_pos _
  refine ⟨h0, h1', e0, e1, by rw [v0]; exact Nat.mod_lt _ (by omega), by rw [v1]; exact Nat.mod_lt _ (by omega), ?_⟩
  have l0 := low_of_small h1 (by omega) a0 lo0 hi0
  have l1 := low_of_small h1 (by omega) a1 lo1 hi1
  have key : ((h0.toNat : ℤ) + h1'.toNat) ≡ ((a0.toNat % 2 ^ shr : ℕ) : ℤ) + ((a1.toNat % 2 ^ shr : ℕ) : ℤ) - 2 ^ shr
      [ZMOD (2 ^ q - 2 : ℕ)] := by
    rw [v0, v1]
    push_cast [Int.natCast_mod]
    have c1 : ((a0.toNat % 2 ^ shr % (2 ^ q - 2) : ℕ) : ℤ) ≡ ((a0.toNat % 2 ^ shr : ℕ) : ℤ) [ZMOD (2 ^ q - 2 : ℕ)] := by
      rw [Int.natCast_mod]; exact Int.mod_modEq _ _
    have c2 : (((a1.toNat % 2 ^ shr + (2 ^ q - 2) - 2 ^ shr) % (2 ^ q - 2) : ℕ) : ℤ) ≡
        ((a1.toNat % 2 ^ shr : ℕ) : ℤ) - 2 ^ shr [ZMOD (2 ^ q - 2 : ℕ)] := by
      rw [Int.natCast_mod]
      refine (Int.mod_modEq _ _).trans ?_
      rw [Nat.cast_sub (show 2 ^ shr ≤ a1.toNat % 2 ^ shr + (2 ^ q - 2) by omega), Nat.cast_add]
      have : ((a1.toNat % 2 ^ shr : ℕ) : ℤ) + ((2 ^ q - 2 : ℕ) : ℤ) - ((2 ^ shr : ℕ) : ℤ) =
          (((a1.toNat % 2 ^ shr : ℕ) : ℤ) - 2 ^ shr) + ((2 ^ q - 2 : ℕ) : ℤ) := by push_cast; ring
      rw [this]
      exact Int.add_modEq_right
    have := c1.add c2
    refine Int.ModEq.trans (by push_cast [Int.natCast_mod] at this ⊢; exact this) ?_
    rw [show ∀ a b c : ℤ, a + b - c = a + (b - c) from fun a b c => by ring]
  have kI : (2 : ℤ) ^ shr = ((2 ^ shr : ℕ) : ℤ) := by push_cast; rfl
  have notD : ¬ (((2 ^ q - 2 : ℕ) : ℤ) ∣ (2 ^ shr : ℤ)) := by
    rw [kI, Int.natCast_dvd_natCast]
    intro h
    have := Nat.le_of_dvd h2s h
    have h8 : 2 ^ shr < 2 ^ q - 2 := by omega
    omega
  rw [l0, l1] at key
  constructor
  · intro h
    by_contra hn
    have hd := (key.symm.trans h).dvd
    apply notD
    unfold OneNegative at hn
    by_cases n0 : a0.toInt < 0 <;> by_cases n1 : a1.toInt < 0 <;> simp only [n0, n1, if_true, if_false] at hd
    · obtain ⟨k, hk⟩ := hd; exact ⟨-k, by linear_combination -hk⟩
    · exact absurd (Or.inl ⟨n0, by omega⟩) hn
    · exact absurd (Or.inr ⟨by omega, n1⟩) hn
    · obtain ⟨k, hk⟩ := hd; exact ⟨k, by linear_combination hk⟩
  · intro h
    refine key.trans ?_
    rcases h with ⟨n0, n1⟩ | ⟨n0, n1⟩
    · rw [if_pos n0, if_neg (by omega)]
      rw [show ∀ a b c : ℤ, a + c + b - c = a + b from fun a b c => by ring]
    · rw [if_neg (by omega), if_pos n1]
      rw [show ∀ a b c : ℤ, a + (b + c) - c = a + b from fun a b c => by ring]

/-- C84, how often the conversion is wrong: for a non-negative `X` the bad first shares are two intervals … -/
theorem c84_bad_share_nonneg (hw : 1 ≤ w) (X x0 : BitVec w) (hX : 0 ≤ X.toInt) :
    ¬ OneNegative x0 (X - x0) ↔
      x0.toNat ≤ X.toNat ∨ (2 ^ (w - 1) ≤ x0.toNat ∧ x0.toNat ≤ 2 ^ (w - 1) + X.toNat) := by
  have e2 : 2 ^ w = 2 * 2 ^ (w - 1) := by rw [← pow_succ']; congr 1; omega
  have hM := Nat.two_pow_pos (w - 1)
  have := X.isLt
  have := x0.isLt
  unfold OneNegative
  simp only [BitVec.toInt_eq_toNat_cond, BitVec.toNat_sub] at *
  generalize 2 ^ (w - 1) = M at *
  generalize 2 ^ w = N at *
  subst e2
  have hmod : (2 * M - x0.toNat + X.toNat) % (2 * M) = if x0.toNat ≤ X.toNat then X.toNat - x0.toNat else 2 * M - x0.toNat + X.toNat := by
    split
    · rw [show 2 * M - x0.toNat + X.toNat = (X.toNat - x0.toNat) + 2 * M by omega, Nat.add_mod_right, Nat.mod_eq_of_lt (by omega)]
    · exact Nat.mod_eq_of_lt (by omega)
  rw [hmod]
  push_cast
  split_ifs at * <;> omega

/-- … and for a negative `X` too. -/
theorem c84_bad_share_neg (hw : 1 ≤ w) (X x0 : BitVec w) (hX : X.toInt < 0) :
    ¬ OneNegative x0 (X - x0) ↔
      X.toNat < x0.toNat ∨ (X.toNat - 2 ^ (w - 1) < x0.toNat ∧ x0.toNat < 2 ^ (w - 1)) := by
  have e2 : 2 ^ w = 2 * 2 ^ (w - 1) := by rw [← pow_succ']; congr 1; omega
  have hM := Nat.two_pow_pos (w - 1)
  have := X.isLt
  have := x0.isLt
  unfold OneNegative
  simp only [BitVec.toInt_eq_toNat_cond, BitVec.toNat_sub] at *
  generalize 2 ^ (w - 1) = M at *
  generalize 2 ^ w = N at *
  subst e2
  have hmod : (2 * M - x0.toNat + X.toNat) % (2 * M) = if x0.toNat ≤ X.toNat then X.toNat - x0.toNat else 2 * M - x0.toNat + X.toNat := by
    split
    · rw [show 2 * M - x0.toNat + X.toNat = (X.toNat - x0.toNat) + 2 * M by omega, Nat.add_mod_right, Nat.mod_eq_of_lt (by omega)]
    · exact Nat.mod_eq_of_lt (by omega)
  rw [hmod]
  push_cast
  split_ifs at * <;> omega

open Classical in
/-- C84: exactly `2 (X + 1)` of the `2^w` sharings of a non-negative `X` are converted wrongly (the header
promises less than `X`, `prime_utils.h:22`). -/
theorem c84_bad_count (hw : 1 ≤ w) (X : BitVec w) (hX : 0 ≤ X.toInt) :
    ((Finset.range (2 ^ w)).filter fun n => ¬ OneNegative (BitVec.ofNat w n) (X - BitVec.ofNat w n)).card = 2 * (X.toNat + 1) := by
  have e2 : 2 ^ w = 2 * 2 ^ (w - 1) := by rw [← pow_succ']; congr 1; omega
  have hM := Nat.two_pow_pos (w - 1)
  have hx : X.toNat < 2 ^ (w - 1) := by
    rw [BitVec.toInt_eq_toNat_cond] at hX
    have := X.isLt
    split at hX <;> omega
  have e : ((Finset.range (2 ^ w)).filter fun n => ¬ OneNegative (BitVec.ofNat w n) (X - BitVec.ofNat w n)) =
      Finset.Ico 0 (X.toNat + 1) ∪ Finset.Ico (2 ^ (w - 1)) (2 ^ (w - 1) + X.toNat + 1) := by
    ext n
    rw [Finset.mem_filter, Finset.mem_range, Finset.mem_union, Finset.mem_Ico, Finset.mem_Ico]
    constructor
    · rintro ⟨hn, h⟩
      rw [c84_bad_share_nonneg hw X _ hX, BitVec.toNat_ofNat, Nat.mod_eq_of_lt hn] at h
      omega
    · intro h
      have hn : n < 2 ^ w := by omega
      refine ⟨hn, ?_⟩
      rw [c84_bad_share_nonneg hw X _ hX, BitVec.toNat_ofNat, Nat.mod_eq_of_lt hn]
      omega
  rw [e, Finset.card_union_of_disjoint, Nat.card_Ico, Nat.card_Ico]
  · omega
  · rw [Finset.disjoint_left]
    intro n h1 h2
    rw [Finset.mem_Ico] at h1 h2
    omega

open Classical in
/-- C84: and `2 (|X| - 1)` of the sharings of a negative `X`. -/
theorem c84_bad_count_neg (hw : 1 ≤ w) (X : BitVec w) (hX : X.toInt < 0) :
    (((Finset.range (2 ^ w)).filter fun n => ¬ OneNegative (BitVec.ofNat w n) (X - BitVec.ofNat w n)).card : ℤ) = 2 * (-X.toInt - 1) := by
  have e2 : 2 ^ w = 2 * 2 ^ (w - 1) := by rw [← pow_succ']; congr 1; omega
  have hM := Nat.two_pow_pos (w - 1)
  have hx : 2 ^ (w - 1) ≤ X.toNat ∧ X.toInt = X.toNat - 2 ^ w := by
    have := X.isLt
    rw [BitVec.toInt_eq_toNat_cond] at *
    push_cast at *
    split at hX
    · omega
    · rw [if_neg (by assumption)]; omega
  have := X.isLt
  have e : ((Finset.range (2 ^ w)).filter fun n => ¬ OneNegative (BitVec.ofNat w n) (X - BitVec.ofNat w n)) =
      Finset.Ico (X.toNat + 1) (2 ^ w) ∪ Finset.Ico (X.toNat - 2 ^ (w - 1) + 1) (2 ^ (w - 1)) := by
    ext n
    rw [Finset.mem_filter, Finset.mem_range, Finset.mem_union, Finset.mem_Ico, Finset.mem_Ico]
    constructor
    · rintro ⟨hn, h⟩
      rw [c84_bad_share_neg hw X _ hX, BitVec.toNat_ofNat, Nat.mod_eq_of_lt hn] at h
      omega
    · intro h
      have hn : n < 2 ^ w := by omega
      refine ⟨hn, ?_⟩
      rw [c84_bad_share_neg hw X _ hX, BitVec.toNat_ofNat, Nat.mod_eq_of_lt hn]
      omega
  rw [e, Finset.card_union_of_disjoint, Nat.card_Ico, Nat.card_Ico, hx.2]
  · have : ((2 : ℤ) ^ w) = ((2 ^ w : ℕ) : ℤ) := by push_cast; rfl
    rw [this]
    omega
  · rw [Finset.disjoint_left]
    intro n h1 h2
    rw [Finset.mem_Ico] at h1 h2
    omega

end Spu.Props.ExpPrime

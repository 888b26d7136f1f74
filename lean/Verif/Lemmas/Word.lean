import Mathlib.Data.BitVec
import Mathlib.Tactic.Ring
import Mathlib.Tactic.Linarith
import Mathlib.Tactic.NormNum

set_option autoImplicit false

/-! # Words as integers modulo `2^w` -/

namespace Spu.Lemmas

theorem ofInt_congr {w : ℕ} {a b : ℤ} (h : (2 : ℤ) ^ w ∣ a - b) :
    BitVec.ofInt w a = BitVec.ofInt w b := by
  apply BitVec.eq_of_toNat_eq
  rw [BitVec.toNat_ofInt, BitVec.toNat_ofInt]
  congr 1
  have : ((2 ^ w : ℕ) : ℤ) = (2 : ℤ) ^ w := by push_cast; rfl
  rw [this]
  exact Int.emod_eq_emod_iff_emod_sub_eq_zero.mpr (Int.emod_eq_zero_of_dvd h)

theorem ofInt_sub {w : ℕ} (a b : ℤ) :
    BitVec.ofInt w (a - b) = BitVec.ofInt w a - BitVec.ofInt w b := by
  rw [sub_eq_add_neg, BitVec.ofInt_add, BitVec.ofInt_neg, ← sub_eq_add_neg]

theorem ofInt_toNat {w : ℕ} (x : BitVec w) : BitVec.ofInt w (x.toNat : ℤ) = x := by
  rw [BitVec.ofInt_natCast, BitVec.ofNat_toNat, BitVec.setWidth_eq]

theorem ofInt_pow {w : ℕ} (k : ℕ) : BitVec.ofInt w (2 ^ k) = (1 : BitVec w) <<< k := by
  apply BitVec.eq_of_toNat_eq
  have : ((2 : ℤ) ^ k) = ((2 ^ k : ℕ) : ℤ) := by push_cast; rfl
  rw [this, BitVec.ofInt_natCast]
  rcases w with _ | w
  · simp [BitVec.toNat_of_zero_length]
  · simp [BitVec.toNat_shiftLeft, Nat.shiftLeft_eq]

theorem shiftLeft_eq_mul {w : ℕ} (x : BitVec w) (k : ℕ) : x <<< k = x * BitVec.ofInt w (2 ^ k) := by
  apply BitVec.eq_of_toNat_eq
  have : ((2 : ℤ) ^ k) = ((2 ^ k : ℕ) : ℤ) := by push_cast; rfl
  rw [this, BitVec.ofInt_natCast, BitVec.toNat_shiftLeft, BitVec.toNat_mul, Nat.shiftLeft_eq]
  simp

theorem ushiftRight_eq {w : ℕ} (x : BitVec w) (k : ℕ) :
    x >>> k = BitVec.ofInt w ((x.toNat / 2 ^ k : ℕ) : ℤ) := by
  rw [← ofInt_toNat (x >>> k), BitVec.toNat_ushiftRight, Nat.shiftRight_eq_div_pow]

theorem sshiftRight_eq {w : ℕ} (x : BitVec w) (k : ℕ) :
    x.sshiftRight k = BitVec.ofInt w (x.toInt / 2 ^ k) := by
  rw [← BitVec.ofInt_toInt (x := x.sshiftRight k), BitVec.toInt_sshiftRight,
    Int.shiftRight_eq_div_pow]
  push_cast; rfl

theorem toInt_bounds {w : ℕ} (x : BitVec w) : -2 ^ (w - 1) ≤ x.toInt ∧ x.toInt < 2 ^ (w - 1) :=
  ⟨BitVec.le_toInt x, BitVec.toInt_lt⟩

/-- two signed values of words agree as soon as they agree modulo `2^w` and are in range -/
theorem toInt_ofInt_of_range {w : ℕ} (hw : 0 < w) {a : ℤ} (h1 : -2 ^ (w - 1) ≤ a)
    (h2 : a < 2 ^ (w - 1)) : (BitVec.ofInt w a).toInt = a := by
  rw [BitVec.toInt_ofInt]
  obtain ⟨v, rfl⟩ : ∃ v, w = v + 1 := ⟨w - 1, by omega⟩
  simp only [Nat.add_sub_cancel] at h1 h2
  apply Int.bmod_eq_of_le
  · push_cast; rw [pow_succ]; omega
  · push_cast; rw [pow_succ]; omega

theorem toNat_eq_of_range {w : ℕ} {x : BitVec w} {a : ℤ} (hx : x = BitVec.ofInt w a)
    (h1 : 0 ≤ a) (h2 : a < 2 ^ w) : (x.toNat : ℤ) = a := by
  subst hx
  rw [BitVec.toNat_ofInt]
  have : ((2 ^ w : ℕ) : ℤ) = (2 : ℤ) ^ w := by push_cast; rfl
  rw [this, Int.emod_eq_of_lt h1 h2]
  omega

/-- floor of a sum: the two floors plus a carry -/
theorem add_ediv_carry (a b m : ℤ) (hm : 0 < m) :
    (a + b) / m = a / m + b / m + (if a % m + b % m ≥ m then 1 else 0) := by
  have ha := Int.emod_nonneg a hm.ne'
  have hb := Int.emod_nonneg b hm.ne'
  have ha' := Int.emod_lt_of_pos a hm
  have hb' := Int.emod_lt_of_pos b hm
  have e1 := Int.mul_ediv_add_emod a m
  have e2 := Int.mul_ediv_add_emod b m
  rw [Int.ediv_eq_iff_of_pos hm]
  split_ifs <;> constructor <;> nlinarith

end Spu.Lemmas

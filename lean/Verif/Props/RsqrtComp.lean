import Verif.Props.LogApprox
import Verif.Props.Bits

set_option autoImplicit false

/-! # C91: the power of two in the reciprocal square root -/

namespace Spu.Props
open Spu.Model Spu.Model.HalRing Spu.Model.FxpDiv Spu.Model.ExpApprox Spu.Model.PolyApprox Spu.Spec.Rounding Spu.Spec.FxpDiv

/-- a word with a single bit -/
theorem ofNat_pow_bit {w k : ℕ} (r : BitVec w) (h : ∀ i, i < w → r.getLsbD i = decide (i = k)) : r = BitVec.ofNat w (2 ^ k) := by
  apply BitVec.eq_of_getLsbD_eq
  intro i hi
  rw [h i hi, BitVec.getLsbD_ofNat, Nat.testBit_two_pow]
  simp [hi, eq_comm]

/-- the constants of `rsqrt_comp` for an even and an odd exponent -/
def rsqC (f e : ℕ) : ℕ :=
  if e % 2 = 0 then (if f % 2 = 1 then 2 ^ ((f + 3) / 2) else sqrt2Shl (f / 2)) else (if f % 2 = 1 then sqrt2Shl (f / 2 + 1) else 2 ^ (f / 2))

theorem comp_word (t : ℕ) (h128 : 2 ^ (t + 1) ≤ 128) (f e : ℕ) (hf : f / 2 * 2 < 2 ^ (t + 1)) (he : e < 2 ^ (t + 1)) (z : BitVec (2 ^ (t + 1)))
    (hz : ∀ i, z.getLsbD i = decide (i = e)) :
    rsqrtComp f z = some (BitVec.ofNat _ (rsqC f e * if e / 2 < f / 2 * 2 then 2 ^ (f / 2 * 2 - 1 - e / 2) else 0)) := by
  have hw0 : 0 < 2 ^ (t + 1) := by positivity
  have hw2 : 2 ^ (t + 1) = 2 ^ t + 2 ^ t := by rw [pow_succ]; ring
  have hh : 2 ^ (t + 1) / 2 = 2 ^ t := by rw [pow_succ, Nat.mul_div_cancel _ (by norm_num)]
  obtain ⟨zs, hzs, hb⟩ := c14_deintl (s := 0) (m := t) h128 hw0 (dvd_refl _) (Nat.zero_le _) z
  have hzs' : bitdeintl z = some zs := by rw [c37_bitdeintl, hzs]
  have hlo : ∀ i, (BitVec.ofNat (2 ^ (t + 1)) (2 ^ (2 ^ t) - 1)).getLsbD i = decide (i < 2 ^ t) := by
    intro i
    rw [BitVec.getLsbD_ofNat, Nat.testBit_two_pow_sub_one]
    by_cases hi : i < 2 ^ t
    · simp [hi]; omega
    · simp [hi]
  set ze := zs &&& BitVec.ofNat (2 ^ (t + 1)) (2 ^ (2 ^ t) - 1) with hze
  set zo := (zs >>> (2 ^ t)) &&& BitVec.ofNat (2 ^ (t + 1)) (2 ^ (2 ^ t) - 1) with hzo
  have hzeb : ∀ i, ze.getLsbD i = decide (2 * i = e) := by
    intro i
    rw [hze, BitVec.getLsbD_and, hlo]
    by_cases hi : i < 2 ^ t
    · have := hb 0 0 i (by norm_num) hi (by omega)
      simp only [zero_mul, zero_add, pow_zero, Nat.div_one, mul_one, add_zero, Nat.mod_one] at this
      rw [this, hz]; simp [hi]
    · have : ¬ 2 * i = e := by omega
      simp [hi, this]
  have hzob : ∀ i, zo.getLsbD i = decide (2 * i + 1 = e) := by
    intro i
    rw [hzo, BitVec.getLsbD_and, hlo, BitVec.getLsbD_ushiftRight]
    by_cases hi : i < 2 ^ t
    · have := hb 0 1 i (by norm_num) hi (by omega)
      simp only [zero_mul, zero_add, pow_zero, Nat.div_one, mul_one, add_zero, Nat.mod_one, one_mul] at this
      rw [this, hz]; simp [hi]
    · have : ¬ 2 * i + 1 = e := by omega
      simp [hi, this]
  have hab : ∀ i, (zo ^^^ ze).getLsbD i = decide (i = e / 2) := by
    intro i
    rw [BitVec.getLsbD_xor, hzeb, hzob]
    rcases Nat.even_or_odd' e with ⟨q, hq | hq⟩
    · have h1 : ¬ 2 * i + 1 = e := by omega
      have h2 : (2 * i = e) ↔ (i = e / 2) := by omega
      simp [h1, h2]
    · have h1 : ¬ 2 * i = e := by omega
      have h2 : (2 * i + 1 = e) ↔ (i = e / 2) := by omega
      simp [h1, h2]
  have hpar : bitParity ze (2 ^ t) = some (bit (decide (e % 2 = 0))) := by
    rw [c37_parity hw0, ones]
    congr 3
    have hs : ((Finset.range (2 ^ t)).filter fun i => ze.getLsbD i = true) = if e % 2 = 0 then {e / 2} else ∅ := by
      ext i
      rw [Finset.mem_filter, Finset.mem_range, hzeb, decide_eq_true_eq]
      split
      · rw [Finset.mem_singleton]; omega
      · rename_i hc
        constructor
        · rintro ⟨_, h⟩; omega
        · intro h; simp at h
    rw [hs]
    split
    · rename_i hc; simp [hc]
    · rename_i hc; simp [hc]
  obtain ⟨ar, har, hrb⟩ := c46_bitrev (Nat.zero_le (f / 2 * 2)) hf (zo ^^^ ze)
  have hm : maskNumberOfBits ar (f / 2 * 2) = BitVec.ofNat _ (if e / 2 < f / 2 * 2 then 2 ^ (f / 2 * 2 - 1 - e / 2) else 0) := by
    have hbit : ∀ i, i < 2 ^ (t + 1) → (maskNumberOfBits ar (f / 2 * 2)).getLsbD i = decide (i < f / 2 * 2 ∧ f / 2 * 2 - 1 - i = e / 2) := by
      intro i hi
      rw [c37_mask, hrb i hi, hab]
      by_cases hif : i < f / 2 * 2
      · have : Spec.revIdx 0 (f / 2 * 2) i = f / 2 * 2 - 1 - i := by rw [Spec.revIdx]; simp; omega
        rw [this]; simp [hif]
      · simp [hif]
    split
    · rename_i hc
      refine ofNat_pow_bit _ fun i hi => ?_
      rw [hbit i hi, decide_eq_decide]; omega
    · rename_i hc
      apply BitVec.eq_of_getLsbD_eq
      intro i hi
      rw [hbit i hi, BitVec.getLsbD_ofNat]
      simp; omega
  have hmul : ∀ a b : ℕ, BitVec.ofNat (2 ^ (t + 1)) a * BitVec.ofNat (2 ^ (t + 1)) b = BitVec.ofNat (2 ^ (t + 1)) (a * b) := by
    intro a b
    apply BitVec.eq_of_toNat_eq
    simp [Nat.mul_mod]
  simp only [rsqrtComp, hh, hzs', Option.bind_eq_bind, Option.bind_some, ← hze, ← hzo, hpar, har, hm, c37_mux, Option.pure_def]
  congr 1
  by_cases hc : e % 2 = 0
  · rw [rsqC, if_pos hc, ← hmul, if_pos (by simpa using hc)]
  · rw [rsqC, if_neg hc, ← hmul, if_neg (by simpa using hc)]

/-- the floored multiple of the square root of two -/
theorem sqrt2Shl_close (n : ℕ) (hn : n ≤ 50) : |(sqrt2Shl n : ℝ) - 2 ^ n * √2| ≤ 1 := by
  have hp : (0 : ℝ) < 2 ^ n := by positivity
  have hp50 : (2 : ℝ) ^ n ≤ 2 ^ 50 := pow_le_pow_right₀ (by norm_num) hn
  have u : √2 ≤ 6369051672525773 / 2 ^ 52 := Real.sqrt_le_iff.2 ⟨by norm_num, by norm_num⟩
  have l : 6369051672525773 / 2 ^ 52 - 1 / 2 ^ 51 ≤ √2 := Real.le_sqrt_of_sq_le (by norm_num)
  have h1 : (sqrt2Shl n : ℝ) ≤ 2 ^ n * 6369051672525773 / 2 ^ 52 := by
    rw [sqrt2Shl]
    refine Nat.cast_div_le.trans (le_of_eq ?_)
    push_cast; norm_num
  have h2 : (2 ^ n * 6369051672525773 / 2 ^ 52 : ℝ) < sqrt2Shl n + 1 := by
    rw [div_lt_iff₀ (by norm_num)]
    have := Nat.lt_div_mul_add (a := 2 ^ n * 6369051672525773) (b := 2 ^ 52) (by norm_num)
    have h : 2 ^ n * 6369051672525773 < (sqrt2Shl n + 1) * 2 ^ 52 := by rw [sqrt2Shl, add_mul, one_mul]; exact this
    exact_mod_cast h
  have a := mul_le_mul_of_nonneg_left u hp.le
  have b := mul_le_mul_of_nonneg_left l hp.le
  rw [mul_sub] at b
  have c : (2 : ℝ) ^ n * (1 / 2 ^ 51) ≤ 1 := by
    refine (mul_le_mul_of_nonneg_right hp50 (by norm_num)).trans (by norm_num)
  rw [mul_div_assoc] at h1 h2
  rw [abs_le]
  constructor <;> linarith

/-- the compensation is close to its ideal value -/
theorem comp_close (f e : ℕ) (hf : f ≤ 90) (he : e / 2 < f / 2 * 2) :
    |((rsqC f e * 2 ^ (f / 2 * 2 - 1 - e / 2) : ℕ) : ℝ) - √(2 ^ (3 * f) / 2 ^ (e + 1))| ≤ √(2 ^ (3 * f) / 2 ^ (e + 1)) / 2 ^ (f / 2) := by
  have hpw : ∀ k, k + (e + 1) = 3 * f → (2 : ℝ) ^ (3 * f) / 2 ^ (e + 1) = 2 ^ k := by
    intro k hk
    rw [div_eq_iff (by positivity), ← pow_add, hk]
  have exact : ∀ j, 2 * j + (e + 1) = 3 * f → √(2 ^ (3 * f) / 2 ^ (e + 1) : ℝ) = 2 ^ j := by
    intro j hj
    rw [hpw _ hj, mul_comm, pow_mul, Real.sqrt_sq (by positivity)]
  have half : ∀ n j, 2 * (n + j) + 1 + (e + 1) = 3 * f → f / 2 ≤ n → n ≤ 50 →
      |((sqrt2Shl n * 2 ^ j : ℕ) : ℝ) - √(2 ^ (3 * f) / 2 ^ (e + 1))| ≤ √(2 ^ (3 * f) / 2 ^ (e + 1)) / 2 ^ (f / 2) := by
    intro n j h hn1 hn2
    have hs : √(2 ^ (3 * f) / 2 ^ (e + 1) : ℝ) = 2 ^ n * √2 * 2 ^ j := by
      rw [hpw _ h, show 2 * (n + j) + 1 = (n + j) * 2 + 1 by ring, pow_succ, Real.sqrt_mul (by positivity), pow_mul, Real.sqrt_sq (by positivity), pow_add]
      ring
    rw [hs]
    push_cast
    rw [← sub_mul, abs_mul, abs_of_pos (by positivity : (0 : ℝ) < 2 ^ j)]
    have h1 := sqrt2Shl_close n hn2
    have hj : (0 : ℝ) < 2 ^ j := by positivity
    have h2 : (1 : ℝ) ≤ 2 ^ n * √2 / 2 ^ (f / 2) := by
      rw [le_div_iff₀ (by positivity), one_mul]
      have a : (2 : ℝ) ^ (f / 2) ≤ 2 ^ n := pow_le_pow_right₀ (by norm_num) hn1
      have b : (1 : ℝ) ≤ √2 := Real.one_le_sqrt.2 (by norm_num)
      have c : (0 : ℝ) < 2 ^ n := by positivity
      nlinarith
    calc _ ≤ 1 * 2 ^ j := mul_le_mul_of_nonneg_right h1 hj.le
      _ ≤ 2 ^ n * √2 / 2 ^ (f / 2) * 2 ^ j := mul_le_mul_of_nonneg_right h2 hj.le
      _ = _ := by ring
  have ex : ∀ i j, 2 * (i + j) + (e + 1) = 3 * f →
      |((2 ^ i * 2 ^ j : ℕ) : ℝ) - √(2 ^ (3 * f) / 2 ^ (e + 1))| ≤ √(2 ^ (3 * f) / 2 ^ (e + 1)) / 2 ^ (f / 2) := by
    intro i j h
    rw [exact _ h]
    push_cast
    rw [pow_add, sub_self, abs_zero]; positivity
  unfold rsqC
  by_cases h1 : e % 2 = 0 <;> by_cases h2 : f % 2 = 1
  · rw [if_pos h1, if_pos h2]; exact ex _ _ (by omega)
  · rw [if_pos h1, if_neg h2]; exact half _ _ (by omega) le_rfl (by omega)
  · rw [if_neg h1, if_pos h2]; exact half _ _ (by omega) (by omega) (by omega)
  · rw [if_neg h1, if_neg h2]; exact ex _ _ (by omega)

end Spu.Props

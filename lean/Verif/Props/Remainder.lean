import Verif.Model.Remainder
import Verif.Props.FxpDiv

set_option autoImplicit false

/-! # C100: remainder of secrets -/

namespace Spu.Props
open Spu.Model Spu.Model.HalRing Spu.Model.FxpDiv Spu.Model.Remainder Spu.Spec.FxpDiv Spu.Spec.Rounding

variable {w : ℕ}

/-- the error of the quotient in C73 -/
def quotErr (f d n : ℕ) (a b : ℚ) : ℚ :=
  |a / b| * (errBound (d / 2 ^ f) n (1 / 10) (d / 2 ^ f) + 4 * (d / 2 ^ f)) + d / 2 ^ f * (1 + 1 / |b|)

/-- C100: the remainder of fixed-point numbers is that of a quotient close to the true one, rounded towards zero. -/
theorem c100_rem (t f d : ℕ) (R : ℤ) (trunc : BitVec (2 ^ t) → BitVec (2 ^ t)) (ht : TruncOk f d R trunc)
    (hf : 2 * f < 2 ^ t) (hf8 : 8 ≤ f) (hR : R ≤ 2 ^ (2 ^ t - 1)) (hR4 : 4 * 2 ^ (2 * f) ≤ R) (hu : (d : ℚ) / 2 ^ f ≤ 1 / 256)
    (cfg n : ℕ) (hn : numIters cfg f = some n) (hnu : (11 / 10 : ℚ) ^ n * (31 * (d / 2 ^ f)) ≤ 1 / 2)
    (a b : BitVec (2 ^ t)) (hb0 : val f b ≠ 0) (hb : |val f b| < 2 ^ f) (ha : 4 * |val f a| * 2 ^ (2 * f) < R)
    (hq : (4 * |val f a| + d / 2 ^ f) * 2 ^ (2 * f) < R * |val f b|) (hb4 : 4 * |val f b| * 2 ^ (2 * f) < R)
    (hE : quotErr f d n (val f a) (val f b) ≤ 1) :
    ∃ r Q, ∃ k : ℤ, remFxp trunc f cfg a b = some r ∧ |Q - val f a / val f b| ≤ quotErr f d n (val f a) (val f b) ∧ TowardZero Q k ∧
      |val f r - (val f a - k * val f b)| ≤ d / 2 ^ f := by
  have hw : 0 < 2 ^ t := by positivity
  have hpf : (0 : ℚ) < 2 ^ f := by positivity
  have hpp : (0 : ℚ) < 2 ^ (2 * f) := by positivity
  have hRq : (R : ℚ) ≤ 2 ^ (2 ^ t - 1) := by exact_mod_cast hR
  have hR4q : 4 * 2 ^ (2 * f) ≤ (R : ℚ) := by exact_mod_cast hR4
  have h256 : (256 : ℚ) ≤ 2 ^ f := by
    calc (256 : ℚ) = 2 ^ 8 := by norm_num
      _ ≤ 2 ^ f := pow_le_pow_right₀ (by norm_num) hf8
  have hff : 256 * 2 ^ f ≤ (2 : ℚ) ^ (2 * f) := by
    rw [two_mul, pow_add]; exact mul_le_mul_of_nonneg_right h256 hpf.le
  have hbp : 0 < |val f b| := abs_pos.2 hb0
  obtain ⟨q, hqd, hqe⟩ := c73_div t f d R trunc ht hf hf8 hR hR4 hu cfg n hn hnu a b hb0 hb ha hq
  set A := val f a with hA
  set B := val f b with hB
  set E := quotErr f d n A B with hEd
  have hqe : |val f q - A / B| ≤ E := hqe
  have hu0 : (0 : ℚ) ≤ d / 2 ^ f := by positivity
  -- the size of the quotient
  have hAB : 4 * |A / B| * 2 ^ (2 * f) < R := by
    rw [abs_div, mul_div_assoc', div_mul_eq_mul_div, div_lt_iff₀ hbp]
    have : 0 ≤ (d : ℚ) / 2 ^ f * 2 ^ (2 * f) := by positivity
    linarith
  have hQ1 : |val f q| ≤ |A / B| + 1 := by
    have := abs_add_le (val f q - A / B) (A / B)
    rw [sub_add_cancel] at this
    linarith
  have hqi : q.toInt + 2 ^ f - 1 < 2 ^ (2 ^ t - 1) := by
    have h1 : (q.toInt : ℚ) ≤ |val f q| * 2 ^ f := by
      rw [← val_mul_pow f q]; exact mul_le_mul_of_nonneg_right (le_abs_self _) hpf.le
    have h2 := mul_le_mul_of_nonneg_right hQ1 hpf.le
    have h3 : |A / B| * (256 * 2 ^ f) ≤ |A / B| * 2 ^ (2 * f) := mul_le_mul_of_nonneg_left hff (abs_nonneg _)
    have h4 : (0 : ℚ) ≤ |A / B| * 2 ^ f := by positivity
    have : (q.toInt : ℚ) + 2 ^ f - 1 < 2 ^ (2 ^ t - 1) := by linarith
    exact_mod_cast this
  -- rounding towards zero
  set s := mux (HalRing.sub 1 (less q 0)) (Rounding.floor f q) (Rounding.ceil f q) with hs
  have hl : less q 0 = bit (decide (q.toInt < 0)) := by
    have := toInt_range hw q
    rw [less_ok hw (by unfold NoOverflow; simpa using this)]; simp
  have hnot : ∀ c : Bool, HalRing.sub (1 : BitVec (2 ^ t)) (bit c) = bit (!c) := by
    intro c; rw [hal_sub]; cases c <;> simp [bit]
  obtain ⟨k, hk, hsv⟩ : ∃ k : ℤ, TowardZero (val f q) k ∧ val f s = k := by
    rw [hs, hl, hnot, c37_mux]
    by_cases hc : q.toInt < 0
    · refine ⟨⌈val f q⌉, ?_, ?_⟩
      · rw [TowardZero, if_neg (by rw [val_neg_iff]; omega)]
      · rw [decide_eq_true hc]; exact c72_ceil f (by omega) q hqi
    · refine ⟨⌊val f q⌋, ?_, ?_⟩
      · rw [TowardZero, if_pos (by rw [val_neg_iff]; omega)]
      · rw [decide_eq_false hc]; exact c72_floor f (by omega) q
  have hkq : |(k : ℚ)| ≤ |val f q| := by
    unfold TowardZero at hk
    split at hk
    · rename_i h0
      have h1 := Int.floor_le (val f q)
      have h2 : (0 : ℤ) ≤ ⌊val f q⌋ := Int.floor_nonneg.2 h0
      have h2 : (0 : ℚ) ≤ (⌊val f q⌋ : ℤ) := by exact_mod_cast h2
      rw [hk, abs_of_nonneg h2, abs_of_nonneg h0]; exact h1
    · rename_i h0
      have h1 := Int.le_ceil (val f q)
      have h2 : ⌈val f q⌉ ≤ 0 := by rw [Int.ceil_le]; push_cast; linarith
      have h2 : ((⌈val f q⌉ : ℤ) : ℚ) ≤ 0 := by exact_mod_cast h2
      rw [hk, abs_of_nonpos h2, abs_of_neg (not_le.1 h0)]; linarith
  -- the product
  have hkb : |(k : ℚ) * B| ≤ |A| + |B| := by
    rw [abs_mul]
    have h1 := mul_le_mul_of_nonneg_right (hkq.trans hQ1) hbp.le
    rw [add_mul, one_mul, abs_div, div_mul_cancel₀ _ hbp.ne'] at h1
    exact h1
  have hm := val_fmul hw ht hR s b (by
    rw [hsv]
    have := mul_le_mul_of_nonneg_right hkb hpp.le
    rw [add_mul] at this
    linarith)
  rw [hsv] at hm
  have hsub := val_sub hw f a (fmul trunc s b) (by
    have h1 : |A - val f (fmul trunc s b)| ≤ |A| + (|A| + |B|) + 1 / 256 := by
      have t2 := abs_add_le (val f (fmul trunc s b) - k * B) (k * B)
      rw [sub_add_cancel] at t2
      have t1 : |A - val f (fmul trunc s b)| ≤ |A| + |val f (fmul trunc s b)| := by
        rw [abs_le]
        have p1 := abs_le.1 (le_refl |A|)
        have p2 := abs_le.1 (le_refl |val f (fmul trunc s b)|)
        constructor <;> linarith
      linarith
    have h2 := mul_le_mul_of_nonneg_right h1 hpf.le
    have h3 : |A| * 2 ^ f ≤ |A| * 2 ^ (2 * f) := mul_le_mul_of_nonneg_left (by linarith) (abs_nonneg _)
    have h4 : |B| * 2 ^ f ≤ |B| * 2 ^ (2 * f) := mul_le_mul_of_nonneg_left (by linarith) (abs_nonneg _)
    linarith)
  refine ⟨_, val f q, k, by simp only [remFxp, hqd, Option.bind_eq_bind, Option.bind_some]; rfl, hqe, hk, ?_⟩
  rw [← hs, hsub, show A - val f (fmul trunc s b) - (A - k * B) = -(val f (fmul trunc s b) - k * B) by ring, abs_neg]
  exact hm

/-- C100: if the quotient is further from the integers around it than its error, the remainder is right within a truncation. -/
theorem c100_rem_exact (t f d : ℕ) (R : ℤ) (trunc : BitVec (2 ^ t) → BitVec (2 ^ t)) (ht : TruncOk f d R trunc)
    (hf : 2 * f < 2 ^ t) (hf8 : 8 ≤ f) (hR : R ≤ 2 ^ (2 ^ t - 1)) (hR4 : 4 * 2 ^ (2 * f) ≤ R) (hu : (d : ℚ) / 2 ^ f ≤ 1 / 256)
    (cfg n : ℕ) (hn : numIters cfg f = some n) (hnu : (11 / 10 : ℚ) ^ n * (31 * (d / 2 ^ f)) ≤ 1 / 2)
    (a b : BitVec (2 ^ t)) (hb0 : val f b ≠ 0) (hb : |val f b| < 2 ^ f) (ha : 4 * |val f a| * 2 ^ (2 * f) < R)
    (hq : (4 * |val f a| + d / 2 ^ f) * 2 ^ (2 * f) < R * |val f b|) (hb4 : 4 * |val f b| * 2 ^ (2 * f) < R)
    (k : ℤ) (hk : TowardZero (val f a / val f b) k)
    (h1 : k = 0 ∨ |(k : ℚ)| + quotErr f d n (val f a) (val f b) ≤ |val f a / val f b|)
    (h2 : |val f a / val f b| + quotErr f d n (val f a) (val f b) < |(k : ℚ)| + 1) :
    ∃ r, remFxp trunc f cfg a b = some r ∧ |val f r - (val f a - k * val f b)| ≤ d / 2 ^ f := by
  have hkq : |(k : ℚ)| ≤ |val f a / val f b| ∧ 0 ≤ (k : ℚ) * (val f a / val f b) := by
    unfold TowardZero at hk
    split at hk
    · rename_i h0
      have h1 := Int.floor_le (val f a / val f b)
      have h2 : (0 : ℤ) ≤ ⌊val f a / val f b⌋ := Int.floor_nonneg.2 h0
      have h2 : (0 : ℚ) ≤ (⌊val f a / val f b⌋ : ℤ) := by exact_mod_cast h2
      rw [hk, abs_of_nonneg h2, abs_of_nonneg h0]; exact ⟨h1, mul_nonneg h2 h0⟩
    · rename_i h0
      have h1 := Int.le_ceil (val f a / val f b)
      have h2 : ⌈val f a / val f b⌉ ≤ 0 := by rw [Int.ceil_le]; push_cast; linarith
      have h2 : ((⌈val f a / val f b⌉ : ℤ) : ℚ) ≤ 0 := by exact_mod_cast h2
      rw [hk, abs_of_nonpos h2, abs_of_neg (not_le.1 h0)]
      exact ⟨by linarith, mul_nonneg_of_nonpos_of_nonpos h2 (not_le.1 h0).le⟩
  obtain ⟨r, Q, k', hr, hQ, hk', he⟩ := c100_rem t f d R trunc ht hf hf8 hR hR4 hu cfg n hn hnu a b hb0 hb ha hq hb4 (by linarith [hkq.1])
  refine ⟨r, hr, ?_⟩
  have hkk : k' = k := by
    set q := val f a / val f b
    set E := quotErr f d n (val f a) (val f b)
    have hQ' := abs_le.1 hQ
    unfold TowardZero at hk'
    rcases lt_trichotomy k 0 with hn0 | rfl | hp0
    · have hkc : (k : ℚ) < 0 := by exact_mod_cast hn0
      have hq0 : q ≤ 0 := by by_contra h; push Not at h; nlinarith [hkq.2]
      rw [abs_of_neg hkc, abs_of_nonpos hq0] at h1 h2
      have h1 := h1.resolve_left (by omega)
      rw [if_neg (by linarith)] at hk'
      rw [hk', Int.ceil_eq_iff]; constructor <;> linarith
    · push_cast at h2
      rw [abs_zero] at h2
      have h3 := abs_le.1 (le_refl |q|)
      split at hk'
      · rw [hk', Int.floor_eq_iff]; push_cast; constructor <;> linarith
      · rw [hk', Int.ceil_eq_iff]; push_cast; constructor <;> linarith
    · have hkc : (0 : ℚ) < k := by exact_mod_cast hp0
      have hq0 : 0 ≤ q := by by_contra h; push Not at h; nlinarith [hkq.2]
      rw [abs_of_pos hkc, abs_of_nonneg hq0] at h1 h2
      have h1 := h1.resolve_left (by omega)
      rw [if_pos (by linarith)] at hk'
      rw [hk', Int.floor_eq_iff]; constructor <;> linarith
  rw [hkk] at he
  exact he

theorem intDiv_tdiv (x y : ℤ) : Spec.IntPow.intDiv x y = x.tdiv y := by
  unfold Spec.IntPow.intDiv
  split
  · rename_i h
    split
    · rw [Int.tdiv_eq_ediv_of_nonneg h]
    · rw [← Int.tdiv_eq_ediv_of_nonneg h, Int.tdiv_neg, neg_neg]
  · rename_i h
    split
    · rw [← Int.tdiv_eq_ediv_of_nonneg (by omega), Int.neg_tdiv, neg_neg]
    · rw [← Int.tdiv_eq_ediv_of_nonneg (by omega), Int.neg_tdiv, Int.tdiv_neg, neg_neg]

/-- C100: the remainder of integers. -/
theorem c100_rem_int (t f d : ℕ) (R : ℤ) (trunc : BitVec (2 ^ t) → BitVec (2 ^ t)) (ht : TruncOk f d R trunc)
    (hf : 2 * f < 2 ^ t) (hf8 : 8 ≤ f) (hf31 : f < 31) (hR : R ≤ 2 ^ (2 ^ t - 1)) (hR4 : 4 * 2 ^ (2 * f) ≤ R)
    (hu : (d : ℚ) / 2 ^ f ≤ 1 / 256) (cfg n : ℕ) (hn : numIters cfg f = some n)
    (hnu : (11 / 10 : ℚ) ^ n * (31 * (d / 2 ^ f)) ≤ 1 / 2) (x y : BitVec (2 ^ t)) (hy0 : y.toInt ≠ 0)
    (hy : |y.toInt| < 2 ^ f) (hx : (4 * |x.toInt| + 1) * 2 ^ (2 * f) ≤ R)
    (hgood : (|x.toInt| / |y.toInt| : ℚ) * (errBound (d / 2 ^ f) n (1 / 10) (d / 2 ^ f) + 4 * (d / 2 ^ f)) + 2 * (d / 2 ^ f) < 1) :
    remInt trunc f cfg x y = some (BitVec.ofInt _ (x.toInt.tmod y.toInt)) := by
  have h := c73_idiv t f d R trunc ht hf hf8 hf31 hR hR4 hu cfg n hn hnu x y hy0 hy hx hgood
  simp only [remInt, h, Option.bind_eq_bind, Option.bind_some]
  rw [show x.toInt.tmod y.toInt = x.toInt - Spec.IntPow.intDiv x.toInt y.toInt * y.toInt by
    rw [intDiv_tdiv, mul_comm]; have := Int.mul_tdiv_add_tmod x.toInt y.toInt; omega]
  rw [hal_sub, ofInt_sub', BitVec.ofInt_mul, ← ofInt_self, ← ofInt_self]; rfl

/-- with 18 fraction bits in words of 64 bits and two iterations: the remainder of minus seven by three is minus one, within a unit -/
example : ∃ r, remFxp (fun v : BitVec (2 ^ 6) => v.sshiftRight 18) 18 2 (BitVec.ofInt (2 ^ 6) (-7 * 2 ^ 18)) (BitVec.ofInt (2 ^ 6) (3 * 2 ^ 18)) = some r ∧
    |val 18 r - (-1)| ≤ 1 / 2 ^ 18 := by
  have ea : val 18 (BitVec.ofInt (2 ^ 6) (-7 * 2 ^ 18)) = -7 := by
    rw [val, show (BitVec.ofInt (2 ^ 6) (-7 * 2 ^ 18)).toInt = -7 * 2 ^ 18 by decide +kernel]; norm_num
  have eb : val 18 (BitVec.ofInt (2 ^ 6) (3 * 2 ^ 18)) = 3 := by
    rw [val, show (BitVec.ofInt (2 ^ 6) (3 * 2 ^ 18)).toInt = 3 * 2 ^ 18 by decide +kernel]; norm_num
  obtain ⟨r, h1, h2⟩ := c100_rem_exact 6 18 1 (2 ^ 62) (fun v : BitVec (2 ^ 6) => v.sshiftRight 18) (truncOk_sar 18 _)
    (by norm_num) (by norm_num) (by norm_num) (by norm_num) (by norm_num) 2 2 rfl (by norm_num)
    (BitVec.ofInt (2 ^ 6) (-7 * 2 ^ 18)) (BitVec.ofInt (2 ^ 6) (3 * 2 ^ 18)) (by rw [eb]; norm_num) (by rw [eb]; norm_num [abs_of_pos])
    (by rw [ea]; norm_num) (by rw [ea, eb]; norm_num) (by rw [eb]; norm_num) (-2)
    (by rw [ea, eb, TowardZero, if_neg (by norm_num)]; symm; rw [Int.ceil_eq_iff]; norm_num)
    (by right; rw [ea, eb]; norm_num [quotErr, errBound, abs_div]) (by rw [ea, eb]; norm_num [quotErr, errBound, abs_div])
  refine ⟨r, h1, ?_⟩
  rw [ea, eb] at h2
  norm_num at h2 ⊢
  exact h2

/-- the remainder of the integers -100000 and 77 -/
example : remInt (fun v : BitVec (2 ^ 6) => v.sshiftRight 18) 18 2 (-100000) 77 = some (-54) := by
  have ex : (-100000 : BitVec (2 ^ 6)).toInt = -100000 := by decide
  have ey : (77 : BitVec (2 ^ 6)).toInt = 77 := by decide
  rw [c100_rem_int 6 18 1 (2 ^ 62) _ (truncOk_sar 18 _) (by norm_num) (by norm_num) (by norm_num) (by norm_num) (by norm_num) (by norm_num)
    2 2 rfl (by norm_num) _ _ (by rw [ey]; norm_num) (by rw [ey]; norm_num) (by rw [ex]; norm_num)
    (by rw [ex, ey]; norm_num [errBound]), ex, ey]
  decide

/-- C100: at integral quotients the divisor itself can come out: six by three gives three, one by one gives one -/
theorem c100_rem_integral :
    remFxp (fun v : BitVec 64 => v.sshiftRight 18) 18 2 (BitVec.ofInt 64 (6 * 2 ^ 18)) (BitVec.ofInt 64 (3 * 2 ^ 18)) = some (BitVec.ofInt 64 (3 * 2 ^ 18)) ∧
    remFxp (fun v : BitVec 64 => v.sshiftRight 18) 18 2 (BitVec.ofInt 64 (2 ^ 18)) (BitVec.ofInt 64 (2 ^ 18)) = some (BitVec.ofInt 64 (2 ^ 18)) := by
  constructor <;> decide +kernel

end Spu.Props

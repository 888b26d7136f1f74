import Mathlib.Tactic.Linarith
import Mathlib.Tactic.Ring
import Mathlib.Tactic.Positivity
import Mathlib.Tactic.FieldSimp
import Mathlib.Analysis.SpecialFunctions.Log.Base
import Mathlib.Analysis.SpecialFunctions.Log.Deriv
import Mathlib.Analysis.Calculus.MeanValue
import Mathlib.Analysis.Complex.ExponentialBounds

set_option autoImplicit false

/-! # C97: the rational function of `log2_pade_normalized` against the binary logarithm (generated certificates) -/

namespace Spu.Props

/-- numerator and denominator -/
noncomputable def log2P (x : ℝ) : ℝ := -8617897 / 2 ^ 22 + -2323293 / 2 ^ 18 * x + 3201225 / 2 ^ 19 * x ^ 2 + 5045197 / 2 ^ 20 * x ^ 3
noncomputable def log2Q (x : ℝ) : ℝ := 2965821 / 2 ^ 23 + 4765957 / 2 ^ 20 * x + 6740081 / 2 ^ 20 * x ^ 2 + x ^ 3

/-- their derivatives -/
noncomputable def log2P' (x : ℝ) : ℝ := -2323293 / 2 ^ 18 + 2 * 3201225 / 2 ^ 19 * x + 3 * 5045197 / 2 ^ 20 * x ^ 2
noncomputable def log2Q' (x : ℝ) : ℝ := 4765957 / 2 ^ 20 + 2 * 6740081 / 2 ^ 20 * x + 3 * x ^ 2

theorem log2Cert_p0 (x : ℝ) (h0 : 1 / 2 ≤ x) (h1 : x ≤ 1) :
    0 ≤ 1 / 100000 * (log2Q x ^ 2 * x * (6931471803 / 10000000000)) + ((log2P' x * log2Q x - log2P x * log2Q' x) * x * (6931471803 / 10000000000) - log2Q x ^ 2) := by
  have a0 : 0 ≤ x - 1 / 2 := by linarith
  have b0 : 0 ≤ 1 - x := by linarith
  have e : 1 / 100000 * (log2Q x ^ 2 * x * (6931471803 / 10000000000)) + ((log2P' x * log2Q x - log2P x * log2Q' x) * x * (6931471803 / 10000000000) - log2Q x ^ 2) =
      8081259285873391902339507 / 1099511627776000000000000000 * ((x - 1 / 2) ^ 0 * (1 - x) ^ 7) +
      18036212074326484369629177 / 137438953472000000000000000 * ((x - 1 / 2) ^ 1 * (1 - x) ^ 6) +
      136826247684061895018335989 / 1099511627776000000000000000 * ((x - 1 / 2) ^ 2 * (1 - x) ^ 5) +
      821530780276857762416746551 / 549755813888000000000000000 * ((x - 1 / 2) ^ 3 * (1 - x) ^ 4) +
      365993768151547352500970309 / 219902325555200000000000000 * ((x - 1 / 2) ^ 4 * (1 - x) ^ 3) +
      47116293871148123585602687 / 54975581388800000000000000 * ((x - 1 / 2) ^ 5 * (1 - x) ^ 2) +
      893255646371016555207769223 / 1099511627776000000000000000 * ((x - 1 / 2) ^ 6 * (1 - x) ^ 1) +
      69231240380621866553158067 / 549755813888000000000000000 * ((x - 1 / 2) ^ 7 * (1 - x) ^ 0) := by
    rw [log2P, log2Q, log2P', log2Q']; ring
  rw [e]; positivity

theorem log2Cert_m0 (x : ℝ) (h0 : 1 / 2 ≤ x) (h1 : x ≤ 1) :
    0 ≤ 1 / 100000 * (log2Q x ^ 2 * x * (6931471803 / 10000000000)) - ((log2P' x * log2Q x - log2P x * log2Q' x) * x * (6931471803 / 10000000000) - log2Q x ^ 2) := by
  have a0 : 0 ≤ x - 1 / 2 := by linarith
  have b0 : 0 ≤ 1 - x := by linarith
  have e : 1 / 100000 * (log2Q x ^ 2 * x * (6931471803 / 10000000000)) - ((log2P' x * log2Q x - log2P x * log2Q' x) * x * (6931471803 / 10000000000) - log2Q x ^ 2) =
      10446781937821519349139507 / 1099511627776000000000000000 * ((x - 1 / 2) ^ 0 * (1 - x) ^ 7) +
      6721737238612982056329177 / 137438953472000000000000000 * ((x - 1 / 2) ^ 1 * (1 - x) ^ 6) +
      762674069758997206787935989 / 1099511627776000000000000000 * ((x - 1 / 2) ^ 2 * (1 - x) ^ 5) +
      303032236760876718035146551 / 549755813888000000000000000 * ((x - 1 / 2) ^ 3 * (1 - x) ^ 4) +
      302662527519216076475290309 / 219902325555200000000000000 * ((x - 1 / 2) ^ 4 * (1 - x) ^ 3) +
      100582266716768519104202687 / 54975581388800000000000000 * ((x - 1 / 2) ^ 5 * (1 - x) ^ 2) +
      543028771604391599270169223 / 1099511627776000000000000000 * ((x - 1 / 2) ^ 6 * (1 - x) ^ 1) +
      78993088182554016577158067 / 549755813888000000000000000 * ((x - 1 / 2) ^ 7 * (1 - x) ^ 0) := by
    rw [log2P, log2Q, log2P', log2Q']; ring
  rw [e]; positivity

theorem log2Cert_p1 (x : ℝ) (h0 : 1 / 2 ≤ x) (h1 : x ≤ 1) :
    0 ≤ 1 / 100000 * (log2Q x ^ 2 * x * (108304247 / 156250000)) + ((log2P' x * log2Q x - log2P x * log2Q' x) * x * (108304247 / 156250000) - log2Q x ^ 2) := by
  have a0 : 0 ≤ x - 1 / 2 := by linarith
  have b0 : 0 ≤ 1 - x := by linarith
  have e : 1 / 100000 * (log2Q x ^ 2 * x * (108304247 / 156250000)) + ((log2P' x * log2Q x - log2P x * log2Q' x) * x * (108304247 / 156250000) - log2Q x ^ 2) =
      126299804315911313492943 / 17179869184000000000000000 * ((x - 1 / 2) ^ 0 * (1 - x) ^ 7) +
      281852306025953356637773 / 2147483648000000000000000 * ((x - 1 / 2) ^ 1 * (1 - x) ^ 6) +
      2139110962245472217895161 / 17179869184000000000000000 * ((x - 1 / 2) ^ 2 * (1 - x) ^ 5) +
      12837777553111898032011299 / 8589934592000000000000000 * ((x - 1 / 2) ^ 3 * (1 - x) ^ 4) +
      5719384078549107316072841 / 3435973836800000000000000 * ((x - 1 / 2) ^ 4 * (1 - x) ^ 3) +
      736338357271928076042763 / 858993459200000000000000 * ((x - 1 / 2) ^ 5 * (1 - x) ^ 2) +
      13958407745301649661403827 / 17179869184000000000000000 * ((x - 1 / 2) ^ 6 * (1 - x) ^ 1) +
      1081858643258749679570383 / 8589934592000000000000000 * ((x - 1 / 2) ^ 7 * (1 - x) ^ 0) := by
    rw [log2P, log2Q, log2P', log2Q']; ring
  rw [e]; positivity

theorem log2Cert_m1 (x : ℝ) (h0 : 1 / 2 ≤ x) (h1 : x ≤ 1) :
    0 ≤ 1 / 100000 * (log2Q x ^ 2 * x * (108304247 / 156250000)) - ((log2P' x * log2Q x - log2P x * log2Q' x) * x * (108304247 / 156250000) - log2Q x ^ 2) := by
  have a0 : 0 ≤ x - 1 / 2 := by linarith
  have b0 : 0 ≤ 1 - x := by linarith
  have e : 1 / 100000 * (log2Q x ^ 2 * x * (108304247 / 156250000)) - ((log2P' x * log2Q x - log2P x * log2Q' x) * x * (108304247 / 156250000) - log2Q x ^ 2) =
      163200840013152246692943 / 17179869184000000000000000 * ((x - 1 / 2) ^ 0 * (1 - x) ^ 7) +
      104990652267774014937773 / 2147483648000000000000000 * ((x - 1 / 2) ^ 1 * (1 - x) ^ 6) +
      11915581507940643808295161 / 17179869184000000000000000 * ((x - 1 / 2) ^ 2 * (1 - x) ^ 5) +
      4733519600777714853611299 / 8589934592000000000000000 * ((x - 1 / 2) ^ 3 * (1 - x) ^ 4) +
      4728370548843033153752841 / 3435973836800000000000000 * ((x - 1 / 2) ^ 4 * (1 - x) ^ 3) +
      1571451653578988067442763 / 858993459200000000000000 * ((x - 1 / 2) ^ 5 * (1 - x) ^ 2) +
      8483536301752543439003827 / 17179869184000000000000000 * ((x - 1 / 2) ^ 6 * (1 - x) ^ 1) +
      1234146492211518055570383 / 8589934592000000000000000 * ((x - 1 / 2) ^ 7 * (1 - x) ^ 0) := by
    rw [log2P, log2Q, log2P', log2Q']; ring
  rw [e]; positivity

theorem log2_between {A B l l1 l2 : ℝ} (h1 : l1 ≤ l) (h2 : l ≤ l2) (g1 : 0 ≤ A * l1 + B) (g2 : 0 ≤ A * l2 + B) : 0 ≤ A * l + B := by
  rcases le_total 0 A with h | h
  · linarith [mul_le_mul_of_nonneg_left h1 h]
  · linarith [mul_le_mul_of_nonpos_left h2 h]

/-- the error of the derivative -/
theorem log2_deriv (x : ℝ) (h0 : 1 / 2 ≤ x) (h1 : x ≤ 1) :
    |(log2P' x * log2Q x - log2P x * log2Q' x) * x * Real.log 2 - log2Q x ^ 2| ≤ 1 / 100000 * (log2Q x ^ 2 * x * Real.log 2) := by
  have l1 : (6931471803 / 10000000000 : ℝ) ≤ Real.log 2 := by have := Real.log_two_gt_d9; norm_num at this ⊢; linarith
  have l2 : Real.log 2 ≤ (108304247 / 156250000 : ℝ) := by have := Real.log_two_lt_d9; norm_num at this ⊢; linarith
  have p0 := log2Cert_p0 x h0 h1
  have p1 := log2Cert_p1 x h0 h1
  have m0 := log2Cert_m0 x h0 h1
  have m1 := log2Cert_m1 x h0 h1
  set N := log2P' x * log2Q x - log2P x * log2Q' x
  set S := log2Q x ^ 2
  have p := log2_between (A := 1 / 100000 * (S * x) + N * x) (B := -S) l1 l2 (by linarith) (by linarith)
  have m := log2_between (A := 1 / 100000 * (S * x) - N * x) (B := S) l1 l2 (by linarith) (by linarith)
  rw [abs_le]; constructor <;> linarith

theorem log2Q_pos (x : ℝ) (h : 0 ≤ x) : 0 < log2Q x := by rw [log2Q]; positivity

/-- C97: the rational function against the binary logarithm -/
theorem log2_close' (x : ℝ) (h0 : 1 / 2 ≤ x) (h1 : x ≤ 1) : |log2P x / log2Q x - Real.logb 2 x| ≤ 6 / 1000000 := by
  have hL : 0 < Real.log 2 := Real.log_pos (by norm_num)
  have hd : ∀ y ∈ Set.Icc (1 / 2 : ℝ) 1, HasDerivWithinAt (fun y => log2P y / log2Q y - Real.log y / Real.log 2)
      ((log2P' y * log2Q y - log2P y * log2Q' y) / log2Q y ^ 2 - 1 / y / Real.log 2) (Set.Icc (1 / 2) 1) y := by
    intro y hy
    have hy0 : 0 < y := by linarith [hy.1]
    have hk : ∀ n : ℕ, HasDerivAt (fun t : ℝ => t ^ n) (n * y ^ (n - 1)) y := fun n => hasDerivAt_pow n y
    have hP : HasDerivAt log2P (log2P' y) y := by
      have h := (((hasDerivAt_id y).const_mul (-2323293 / 2 ^ 18 : ℝ)).add ((hk 2).const_mul (3201225 / 2 ^ 19 : ℝ))).add ((hk 3).const_mul (5045197 / 2 ^ 20 : ℝ))
      have h := h.const_add (-8617897 / 2 ^ 22 : ℝ)
      have e : log2P = fun t : ℝ => -8617897 / 2 ^ 22 + ((-2323293 / 2 ^ 18 * t + 3201225 / 2 ^ 19 * t ^ 2) + 5045197 / 2 ^ 20 * t ^ 3) := by
        funext t; rw [log2P]; ring
      rw [e]
      refine HasDerivAt.congr_deriv h ?_
      rw [log2P']; push_cast; norm_num; ring
    have hQ : HasDerivAt log2Q (log2Q' y) y := by
      have h := (((hasDerivAt_id y).const_mul (4765957 / 2 ^ 20 : ℝ)).add ((hk 2).const_mul (6740081 / 2 ^ 20 : ℝ))).add (hk 3)
      have h := h.const_add (2965821 / 2 ^ 23 : ℝ)
      have e : log2Q = fun t : ℝ => 2965821 / 2 ^ 23 + ((4765957 / 2 ^ 20 * t + 6740081 / 2 ^ 20 * t ^ 2) + t ^ 3) := by
        funext t; rw [log2Q]; ring
      rw [e]
      refine HasDerivAt.congr_deriv h ?_
      rw [log2Q']; push_cast; norm_num; ring
    have hl : HasDerivAt Real.log (1 / y) y := by rw [one_div]; exact Real.hasDerivAt_log hy0.ne'
    exact ((hP.div hQ (log2Q_pos y hy0.le).ne').sub (hl.div_const _)).hasDerivWithinAt
  have hb : ∀ y ∈ Set.Icc (1 / 2 : ℝ) 1, ‖(log2P' y * log2Q y - log2P y * log2Q' y) / log2Q y ^ 2 - 1 / y / Real.log 2‖ ≤ 1 / 100000 := by
    intro y hy
    have hy0 : 0 < y := by linarith [hy.1]
    have hq := log2Q_pos y hy0.le
    have e : (log2P' y * log2Q y - log2P y * log2Q' y) / log2Q y ^ 2 - 1 / y / Real.log 2 =
        ((log2P' y * log2Q y - log2P y * log2Q' y) * y * Real.log 2 - log2Q y ^ 2) / (log2Q y ^ 2 * y * Real.log 2) := by
      field_simp
    rw [e, Real.norm_eq_abs, abs_div, abs_of_pos (by positivity : 0 < log2Q y ^ 2 * y * Real.log 2), div_le_iff₀ (by positivity)]
    exact log2_deriv y hy.1 hy.2
  have := Convex.norm_image_sub_le_of_norm_hasDerivWithin_le hd hb (convex_Icc _ _) (Set.right_mem_Icc.2 (by norm_num)) (⟨h0, h1⟩ : x ∈ Set.Icc (1 / 2 : ℝ) 1)
  rw [Real.log_one, zero_div, sub_zero, Real.norm_eq_abs, Real.norm_eq_abs, abs_of_nonpos (by linarith : x - 1 ≤ 0)] at this
  have e1 : |log2P 1 / log2Q 1| ≤ 1 / 1000000 := by
    rw [log2P, log2Q]; norm_num [abs_of_pos, abs_of_neg]
  have t := abs_add_le (log2P x / log2Q x - Real.log x / Real.log 2 - log2P 1 / log2Q 1) (log2P 1 / log2Q 1)
  rw [sub_add_cancel] at t
  rw [Real.logb]
  linarith

end Spu.Props

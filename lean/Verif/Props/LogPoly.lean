import Mathlib.Analysis.Calculus.MeanValue
import Mathlib.Analysis.SpecialFunctions.Log.Deriv
import Mathlib.Tactic.Ring
import Mathlib.Tactic.Linarith
import Mathlib.Tactic.Positivity

set_option autoImplicit false

/-! # C90: the polynomial for the logarithm -/

namespace Spu.Props

/-- the polynomial of `log_minmax_normalized` with the exact coefficients -/
noncomputable def logPolyR (t : ℝ) : ℝ := (4194289 / 4194304) * t ^ 1 + (-131039 / 262144) * t ^ 2 + (695833 / 2097152) * t ^ 3 + (-4038843 / 16777216) * t ^ 4 + (5625537 / 33554432) * t ^ 5 + (-6397447 / 67108864) * t ^ 6 + (9687431 / 268435456) * t ^ 7 + (-13858881 / 2147483648) * t ^ 8

/-- the numerator of the derivative of the error -/
noncomputable def logErrNum (t : ℝ) : ℝ := (-15 / 4194304) + (1041 / 4194304) * t ^ 1 + (-9125 / 2097152) * t ^ 2 + (136155 / 4194304) * t ^ 3 + (-4183059 / 33554432) * t ^ 4 + (558459 / 2097152) * t ^ 5 + (-85726711 / 268435456) * t ^ 6 + (3372071 / 16777216) * t ^ 7 + (-13858881 / 268435456) * t ^ 8

/-- nonnegative coefficients in the Bernstein basis of degree 24 -/
theorem logErrNum_le (t : ℝ) (h0 : 0 ≤ t) (h1 : t ≤ 1) : |logErrNum t| ≤ 11 / 1000000 := by
  obtain ⟨s, hs, hst⟩ : ∃ s : ℝ, 0 ≤ s ∧ s = 1 - t := ⟨1 - t, by linarith, rfl⟩
  have a : 11 / 1000000 + logErrNum t = 486521 / 65536000000 * (s ^ 24) +
      27942129 / 65536000000 * (t * s ^ 23) +
      223232921 / 65536000000 * (t ^ 2 * s ^ 22) +
      238476501 / 16384000000 * (t ^ 3 * s ^ 21) +
      36887380293 / 524288000000 * (t ^ 4 * s ^ 20) +
      52760536543 / 131072000000 * (t ^ 5 * s ^ 19) +
      7341281843649 / 4194304000000 * (t ^ 6 * s ^ 18) +
      10897106044513 / 2097152000000 * (t ^ 7 * s ^ 17) +
      5642833613003 / 524288000000 * (t ^ 8 * s ^ 16) +
      2112248447793 / 131072000000 * (t ^ 9 * s ^ 15) +
      19280985045391 / 1048576000000 * (t ^ 10 * s ^ 14) +
      9474127190817 / 524288000000 * (t ^ 11 * s ^ 13) +
      9826535997083 / 524288000000 * (t ^ 12 * s ^ 12) +
      706515971887 / 32768000000 * (t ^ 13 * s ^ 11) +
      47875223793907 / 2097152000000 * (t ^ 14 * s ^ 10) +
      19958550441719 / 1048576000000 * (t ^ 15 * s ^ 9) +
      6120862456753 / 524288000000 * (t ^ 16 * s ^ 8) +
      662820275243 / 131072000000 * (t ^ 17 * s ^ 7) +
      1548464847631 / 1048576000000 * (t ^ 18 * s ^ 6) +
      148825161797 / 524288000000 * (t ^ 19 * s ^ 5) +
      1631667323 / 32768000000 * (t ^ 20 * s ^ 4) +
      2084796383 / 131072000000 * (t ^ 21 * s ^ 3) +
      18687297569 / 4194304000000 * (t ^ 22 * s ^ 2) +
      1091913753 / 2097152000000 * (t ^ 23 * s) +
      176167 / 131072000000 * (t ^ 24) := by
    rw [logErrNum, hst]; ring
  have b : 11 / 1000000 - logErrNum t = 955271 / 65536000000 * (s ^ 24) +
      6660879 / 65536000000 * (t * s ^ 23) +
      174701671 / 65536000000 * (t ^ 2 * s ^ 22) +
      491070251 / 16384000000 * (t ^ 3 * s ^ 21) +
      85676474043 / 524288000000 * (t ^ 4 * s ^ 20) +
      69803317793 / 131072000000 * (t ^ 5 * s ^ 19) +
      5078522062399 / 4194304000000 * (t ^ 6 * s ^ 18) +
      5071213263263 / 2097152000000 * (t ^ 7 * s ^ 17) +
      2840336019253 / 524288000000 * (t ^ 8 * s ^ 16) +
      1658049166543 / 131072000000 * (t ^ 9 * s ^ 15) +
      25962586326641 / 1048576000000 * (t ^ 10 * s ^ 14) +
      19317236409567 / 524288000000 * (t ^ 11 * s ^ 13) +
      21364107903333 / 524288000000 * (t ^ 12 * s ^ 12) +
      1092944253137 / 32768000000 * (t ^ 13 * s ^ 11) +
      42611918950157 / 2097152000000 * (t ^ 14 * s ^ 10) +
      10203830472969 / 1048576000000 * (t ^ 15 * s ^ 9) +
      2362307175503 / 524288000000 * (t ^ 16 * s ^ 8) +
      335199681493 / 131072000000 * (t ^ 17 * s ^ 7) +
      1556486128881 / 1048576000000 * (t ^ 18 * s ^ 6) +
      341430255547 / 524288000000 * (t ^ 19 * s ^ 5) +
      6028573573 / 32768000000 * (t ^ 20 * s ^ 4) +
      3751577633 / 131072000000 * (t ^ 21 * s ^ 3) +
      6780516319 / 4194304000000 * (t ^ 22 * s ^ 2) +
      15382503 / 2097152000000 * (t ^ 23 * s) +
      2707417 / 131072000000 * (t ^ 24) := by
    rw [logErrNum, hst]; ring
  have a0 : 0 ≤ 11 / 1000000 + logErrNum t := by rw [a]; positivity
  have b0 : 0 ≤ 11 / 1000000 - logErrNum t := by rw [b]; positivity
  rw [abs_le]; constructor <;> linarith

/-- the polynomial against the logarithm -/
theorem logPoly_close (t : ℝ) (h0 : 0 ≤ t) (h1 : t ≤ 1) : |logPolyR t - Real.log (1 + t)| ≤ 11 / 1000000 := by
  have hd : ∀ x ∈ Set.Icc (0 : ℝ) 1, HasDerivWithinAt (fun t => logPolyR t - Real.log (1 + t)) (logErrNum x / (1 + x)) (Set.Icc 0 1) x := by
    intro x hx
    have hx1 : 0 < 1 + x := by linarith [hx.1]
    have hp : HasDerivAt logPolyR ((4194289 / 4194304) * (1 * x ^ 0) + (-131039 / 262144) * (2 * x ^ 1) + (695833 / 2097152) * (3 * x ^ 2) + (-4038843 / 16777216) * (4 * x ^ 3) + (5625537 / 33554432) * (5 * x ^ 4) + (-6397447 / 67108864) * (6 * x ^ 5) + (9687431 / 268435456) * (7 * x ^ 6) + (-13858881 / 2147483648) * (8 * x ^ 7)) x := by
      unfold logPolyR
      have hk : ∀ n : ℕ, HasDerivAt (fun t : ℝ => t ^ n) (n * x ^ (n - 1)) x := fun n => hasDerivAt_pow n x
      have := (((((((((hk 1).const_mul (4194289 / 4194304 : ℝ)).add ((hk 2).const_mul (-131039 / 262144 : ℝ))).add
        ((hk 3).const_mul (695833 / 2097152 : ℝ))).add ((hk 4).const_mul (-4038843 / 16777216 : ℝ))).add
        ((hk 5).const_mul (5625537 / 33554432 : ℝ))).add ((hk 6).const_mul (-6397447 / 67108864 : ℝ))).add
        ((hk 7).const_mul (9687431 / 268435456 : ℝ))).add ((hk 8).const_mul (-13858881 / 2147483648 : ℝ)))
      exact_mod_cast this
    have hl : HasDerivAt (fun t => Real.log (1 + t)) (1 / (1 + x)) x :=
      ((hasDerivAt_id x).const_add 1).log hx1.ne'
    have := (hp.sub hl).hasDerivWithinAt (s := Set.Icc 0 1)
    refine this.congr_deriv ?_
    rw [eq_div_iff hx1.ne', sub_mul, div_mul_cancel₀ _ hx1.ne', logErrNum]
    ring
  have hb : ∀ x ∈ Set.Icc (0 : ℝ) 1, ‖logErrNum x / (1 + x)‖ ≤ 11 / 1000000 := by
    intro x hx
    have hx1 : 0 < 1 + x := by linarith [hx.1]
    rw [Real.norm_eq_abs, abs_div, abs_of_pos hx1, div_le_iff₀ hx1]
    have := logErrNum_le x hx.1 hx.2
    nlinarith [hx.1]
  have := Convex.norm_image_sub_le_of_norm_hasDerivWithin_le hd hb (convex_Icc 0 1) (Set.left_mem_Icc.2 zero_le_one) (⟨h0, h1⟩ : t ∈ Set.Icc (0 : ℝ) 1)
  have e0 : logPolyR 0 - Real.log (1 + 0) = 0 := by rw [logPolyR]; norm_num
  rw [e0, sub_zero, sub_zero, Real.norm_eq_abs, Real.norm_eq_abs, abs_of_nonneg h0] at this
  nlinarith

end Spu.Props

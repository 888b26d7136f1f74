import Mathlib.Analysis.SpecialFunctions.Complex.Arg
import Mathlib.Analysis.SpecialFunctions.Trigonometric.Arctan
import Mathlib.Tactic.Linarith

set_option autoImplicit false

/-! # C92: the argument of a complex number from an arc tangent in `[0, π/4]` -/

namespace Spu.Props
open Real

/-- the re-mapping of `atan2_minimax`: `a` for swapped coordinates, `b` for a negative real part, `c` for a negative imaginary part -/
noncomputable def remap (a b c : Prop) [Decidable a] [Decidable b] [Decidable c] (φ : ℝ) : ℝ :=
  let φ := if a then π / 2 - φ else φ
  let φ := if b then π - φ else φ
  if c then -φ else φ

/-- the argument of a complex number is the re-mapped arc tangent of the ratio of the smaller to the larger coordinate -/
theorem arg_remap (X Y : ℝ) (h : 0 < max |X| |Y|) [Decidable (|X| < |Y|)] [Decidable (X < 0)] [Decidable (Y < 0)] :
    Complex.arg ⟨X, Y⟩ = remap (|X| < |Y|) (X < 0) (Y < 0) (arctan (min |X| |Y| / max |X| |Y|)) := by
  set B := max |X| |Y| with hB
  set S := min |X| |Y| with hS
  set φ := arctan (S / B) with hφ
  have hS0 : 0 ≤ S := le_min (abs_nonneg _) (abs_nonneg _)
  have hSB : S ≤ B := min_le_max
  have hq0 : 0 ≤ S / B := div_nonneg hS0 h.le
  set k := √(1 + (S / B) ^ 2) with hk
  have hk0 : 0 < k := Real.sqrt_pos.2 (by positivity)
  have hc : B * k * cos φ = B := by rw [hφ, cos_arctan, ← hk]; field_simp
  have hs : B * k * sin φ = S := by rw [hφ, sin_arctan, ← hk]; field_simp
  have hr : 0 < B * k := mul_pos h hk0
  have hφ0 : 0 ≤ φ := arctan_nonneg.2 hq0
  have hφ1 : φ ≤ π / 4 := by
    rw [hφ, ← arctan_one]; exact arctan_strictMono.monotone ((div_le_one h).2 hSB)
  have hpi := pi_pos
  -- the swap
  obtain ⟨φ1, e1, c1, s1, l1, u1⟩ : ∃ φ1, φ1 = (if |X| < |Y| then π / 2 - φ else φ) ∧ B * k * cos φ1 = |X| ∧ B * k * sin φ1 = |Y| ∧ 0 ≤ φ1 ∧ φ1 ≤ π / 2 := by
    refine ⟨_, rfl, ?_⟩
    split
    · rename_i g
      rw [cos_pi_div_two_sub, sin_pi_div_two_sub, hc, hs, hB, hS, max_eq_right g.le, min_eq_left g.le]
      exact ⟨rfl, rfl, by linarith, by linarith⟩
    · rename_i g
      rw [hc, hs, hB, hS, max_eq_left (not_lt.1 g), min_eq_right (not_lt.1 g)]
      exact ⟨rfl, rfl, by linarith, by linarith⟩
  obtain ⟨φ2, e2, c2, s2, l2, u2⟩ : ∃ φ2, φ2 = (if X < 0 then π - φ1 else φ1) ∧ B * k * cos φ2 = X ∧ B * k * sin φ2 = |Y| ∧ 0 ≤ φ2 ∧ φ2 ≤ π := by
    refine ⟨_, rfl, ?_⟩
    split
    · rename_i g
      rw [cos_pi_sub, sin_pi_sub, s1, mul_neg, c1, abs_of_neg g, neg_neg]
      exact ⟨rfl, rfl, by linarith, by linarith⟩
    · rename_i g
      rw [s1, c1, abs_of_nonneg (not_lt.1 g)]
      exact ⟨rfl, rfl, by linarith, by linarith⟩
  obtain ⟨φ3, e3, c3, s3, m3⟩ : ∃ φ3, φ3 = (if Y < 0 then -φ2 else φ2) ∧ B * k * cos φ3 = X ∧ B * k * sin φ3 = Y ∧ φ3 ∈ Set.Ioc (-π) π := by
    refine ⟨_, rfl, ?_⟩
    split
    · rename_i g
      rw [cos_neg, sin_neg, c2, mul_neg, s2, abs_of_neg g, neg_neg]
      refine ⟨rfl, rfl, ?_, by linarith⟩
      have : φ2 ≠ π := fun e => by
        rw [e, sin_pi, mul_zero, abs_of_neg g] at s2; linarith
      have := lt_of_le_of_ne u2 this
      linarith
    · rename_i g
      rw [c2, s2, abs_of_nonneg (not_lt.1 g)]
      exact ⟨rfl, rfl, by linarith, u2⟩
  have key := Complex.arg_mul_cos_add_sin_mul_I hr m3
  have ez : ((B * k : ℝ) : ℂ) * (Complex.cos φ3 + Complex.sin φ3 * Complex.I) = ⟨X, Y⟩ := by
    apply Complex.ext
    · rw [← c3]; simp [Complex.cos_ofReal_re]
    · rw [← s3]; simp [Complex.sin_ofReal_re]
  rw [ez] at key
  rw [key, e3, e2, e1]; rfl

end Spu.Props

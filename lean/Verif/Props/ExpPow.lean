import Verif.Props.ExpPade
import Mathlib.Tactic.IntervalCases

set_option autoImplicit false

/-! # C89: powers of two, the clamped exponential and the sigmoids -/

namespace Spu.Props
open Spu.Model Spu.Model.HalRing Spu.Model.FxpDiv Spu.Model.ExpApprox Spu.Spec.Rounding Spu.Spec.FxpDiv

variable {w : ℕ}

/-! ### The integer part -/

theorem exp_sum_bits (n : ℕ) : (n.testBit 0).toNat * 1 + (n.testBit 1).toNat * 2 + (n.testBit 2).toNat * 4 + (n.testBit 3).toNat * 8 +
    (n.testBit 4).toNat * 16 = n % 32 := by
  have h : ∀ i < 5, n.testBit i = (n % 32).testBit i := fun i hi => by
    rw [show (32 : ℕ) = 2 ^ 5 by norm_num, Nat.testBit_mod_two_pow]; simp [hi]
  rw [h 0 (by norm_num), h 1 (by norm_num), h 2 (by norm_num), h 3 (by norm_num), h 4 (by norm_num)]
  have : n % 32 < 32 := Nat.mod_lt _ (by norm_num)
  generalize n % 32 = m at *
  interval_cases m <;> decide

theorem scaleBit_eq (hw : 18 ≤ w) (xi ret : BitVec w) {idx : ℕ} (hi : idx < 5) :
    scaleBit xi ret idx = ret * BitVec.ofNat w (2 ^ ((xi.toNat.testBit idx).toNat * 2 ^ idx)) := by
  have ha : maskNumberOfBits ((xi >>> idx) &&& 1) 1 = bit (xi.toNat.testBit idx) := by
    apply BitVec.eq_of_getLsbD_eq
    intro i _
    have h1 : (1 : BitVec w).getLsbD i = decide (i = 0) := by
      have := getLsbD_bit (w := w) (by omega) true i
      simpa [bit] using this
    rw [c37_mask, BitVec.getLsbD_and, BitVec.getLsbD_ushiftRight, getLsbD_bit (by omega), h1]
    by_cases h0 : i = 0
    · subst h0; simp [BitVec.getLsbD]
    · simp [h0]
  have hk : min (2 ^ idx) (w - 2) = 2 ^ idx := min_eq_left (by interval_cases idx <;> omega)
  have hk2 : 2 ^ 2 ^ idx % 2 ^ 32 = 2 ^ 2 ^ idx := Nat.mod_eq_of_lt (Nat.pow_lt_pow_right (by norm_num) (by interval_cases idx <;> norm_num))
  simp only [scaleBit]
  rw [ha, hk, hk2, hal_sub]
  have h1 : (1 : BitVec w) = BitVec.ofNat w 1 := rfl
  cases xi.toNat.testBit idx
  · simp [bit]
  · simp [bit]

theorem scale_fold (hw : 18 ≤ w) (xi ret : BitVec w) :
    (List.range 5).foldl (scaleBit xi) ret = ret * BitVec.ofNat w (2 ^ (xi.toNat % 32)) := by
  have e : List.range 5 = [0, 1, 2, 3, 4] := rfl
  simp only [e, List.foldl_cons, List.foldl_nil]
  rw [scaleBit_eq hw xi _ (by norm_num), scaleBit_eq hw xi _ (by norm_num), scaleBit_eq hw xi _ (by norm_num),
    scaleBit_eq hw xi _ (by norm_num), scaleBit_eq hw xi _ (by norm_num), ← exp_sum_bits, pow_add, pow_add, pow_add, pow_add]
  simp only [BitVec.ofNat_mul, pow_zero, pow_one]
  norm_num [mul_assoc]

/-- integer part modulo 32 and fraction -/
theorem split_word {f : ℕ} (hf : f + 5 ≤ w) (x : BitVec w) : ((x >>> f).toNat % 32 : ℤ) = x.toInt / 2 ^ f % 32 ∧
    (HalRing.sub x ((x >>> f) <<< f)).toInt = x.toInt % 2 ^ f := by
  have hw : 0 < w := by omega
  obtain ⟨g, rfl⟩ : ∃ g, w = f + 5 + g := ⟨w - (f + 5), by omega⟩
  have hx : ∃ c : ℤ, x.toInt = x.toNat + 2 ^ f * (32 * c) := by
    have e : ((2 : ℤ) ^ (f + 5 + g)) = 2 ^ f * (32 * 2 ^ g) := by rw [pow_add, pow_add]; ring
    have h := BitVec.toInt_eq_toNat_cond x
    split at h
    · exact ⟨0, by rw [h]; ring⟩
    · refine ⟨-2 ^ g, ?_⟩
      rw [h]; push_cast; rw [e]; ring
  obtain ⟨c, hc⟩ := hx
  have hp : (2 : ℤ) ^ f ≠ 0 := by positivity
  have hsr : (x >>> f).toNat = x.toNat / 2 ^ f := by rw [BitVec.toNat_ushiftRight, Nat.shiftRight_eq_div_pow]
  refine ⟨?_, ?_⟩
  · rw [hc, Int.add_mul_ediv_left _ _ hp, Int.add_mul_emod_self_left, hsr]; push_cast; rfl
  · have hlt := x.isLt
    rw [hal_sub]
    have hs : x - (x >>> f) <<< f = BitVec.ofNat _ (x.toNat % 2 ^ f) := by
      rw [sub_eq_iff_eq_add]
      apply BitVec.eq_of_toNat_eq
      rw [BitVec.toNat_add, BitVec.toNat_ofNat, BitVec.toNat_shiftLeft, hsr, Nat.shiftLeft_eq, ← Nat.add_mod, Nat.mod_add_div', Nat.mod_eq_of_lt hlt]
    have hlt2 : x.toNat % 2 ^ f < 2 ^ f := Nat.mod_lt _ (by positivity)
    have hlt3 : (2 : ℤ) ^ f ≤ 2 ^ (f + 5 + g - 1) := pow_le_pow_right₀ (by norm_num) (by omega)
    have := toInt_eq_of hw (x - (x >>> f) <<< f) ((x.toNat % 2 ^ f : ℕ) : ℤ) (by rw [hs, BitVec.ofInt_natCast])
      (by have : (0 : ℤ) ≤ 2 ^ (f + 5 + g - 1) := by positivity
          omega)
      (by have : ((x.toNat % 2 ^ f : ℕ) : ℤ) < 2 ^ f := by exact_mod_cast hlt2
          omega)
    rw [this, hc, Int.add_mul_emod_self_left]; push_cast; rfl

/-- FINDING: for a number that is not negative the integer part counts modulo 32, so adding 32 does not change the result
of `exp2_pade`. -/
theorem c89_exp2_wrap {f : ℕ} (hf : f + 5 ≤ w) (hw : 18 ≤ w) (T : ℕ → BitVec w → BitVec w) (x y : BitVec w) (hx : 0 ≤ x.toInt)
    (h : y.toInt = x.toInt + 32 * 2 ^ f) : exp2Pade T f y = exp2Pade T f x := by
  have hw0 : 0 < w := by omega
  obtain ⟨i1, f1⟩ := split_word hf x
  obtain ⟨i2, f2⟩ := split_word hf y
  have hp : (2 : ℤ) ^ f ≠ 0 := by positivity
  have e1 : (y >>> f).toNat % 32 = (x >>> f).toNat % 32 := by
    have : ((y >>> f).toNat % 32 : ℤ) = (x >>> f).toNat % 32 := by
      rw [i1, i2, h, Int.add_mul_ediv_right _ _ hp]; omega
    exact_mod_cast this
  have e2 : HalRing.sub y ((y >>> f) <<< f) = HalRing.sub x ((x >>> f) <<< f) := by
    apply BitVec.eq_of_toInt_eq
    rw [f1, f2, h, Int.add_mul_emod_self_right]
  have m1 : x >>> (w - 1) = 0 := by
    have := hal_msb hw0 x
    rw [HalRing.msb] at this
    rw [this, decide_eq_false (by omega)]; rfl
  have m2 : y >>> (w - 1) = 0 := by
    have := hal_msb hw0 y
    rw [HalRing.msb] at this
    rw [this, decide_eq_false (by rw [h]; have : (0 : ℤ) < 2 ^ f := by positivity
                                  omega)]; rfl
  simp only [exp2Pade]
  rw [scale_fold hw, scale_fold hw, e1, e2, m1, m2]

/-! ### The polynomial against the power of two -/

theorem expPoly_close (t : ℚ) (h0 : 0 ≤ t) (h1 : t ≤ 1) : |((expPoly t : ℚ) : ℝ) - (2 : ℝ) ^ (t : ℝ)| ≤ 1 / 5000 := by
  have g := Real.log_two_gt_d9
  have l := Real.log_two_lt_d9
  set L := Real.log 2 with hL
  have t0 : (0 : ℝ) ≤ t := by exact_mod_cast h0
  have t1 : (t : ℝ) ≤ 1 := by exact_mod_cast h1
  set s : ℝ := (t : ℝ) with hs
  rw [Real.rpow_def_of_pos (by norm_num)]
  have hx1 : |L * s| ≤ 1 := by
    rw [abs_of_nonneg (mul_nonneg (by linarith) t0)]; nlinarith
  have hb := Real.exp_bound hx1 (n := 6) (by norm_num)
  have hp : ∀ n, 0 ≤ s ^ n ∧ s ^ n ≤ 1 := fun n => ⟨pow_nonneg t0 n, pow_le_one₀ t0 t1⟩
  have L1 : 0 ≤ L := by linarith
  have q2 : |L ^ 2 - 4804530139 / 10 ^ 10| ≤ 1 / 10 ^ 8 := by
    rw [abs_le]; constructor <;> nlinarith
  have q2' := abs_le.1 q2
  have q3 : |L ^ 3 - 3330246520 / 10 ^ 10| ≤ 1 / 10 ^ 7 := by
    have e : L ^ 3 = L ^ 2 * L := by ring
    rw [e, abs_le]; constructor <;> nlinarith
  have q3' := abs_le.1 q3
  have q4 : |L ^ 4 - 2308350986 / 10 ^ 10| ≤ 1 / 10 ^ 7 := by
    have e : L ^ 4 = L ^ 3 * L := by ring
    rw [e, abs_le]; constructor <;> nlinarith
  have q4' := abs_le.1 q4
  have q5 : |L ^ 5 - 1600026977 / 10 ^ 10| ≤ 1 / 10 ^ 7 := by
    have e : L ^ 5 = L ^ 4 * L := by ring
    rw [e, abs_le]; constructor <;> nlinarith
  have q5' := abs_le.1 q5
  have q6 : L ^ 6 ≤ 1111 / 10000 := by
    have e : L ^ 6 = L ^ 5 * L := by ring
    rw [e]; nlinarith
  have hrem : |Real.exp (L * s) - ∑ m ∈ Finset.range 6, (L * s) ^ m / (m.factorial : ℝ)| ≤ 18 / 100000 + 1 / 10 ^ 6 := by
    refine hb.trans ?_
    rw [abs_of_nonneg (mul_nonneg L1 t0), mul_pow]
    have := mul_le_mul q6 (hp 6).2 (hp 6).1 (by norm_num)
    norm_num [Nat.factorial]
    nlinarith
  simp only [Finset.sum_range_succ, Finset.sum_range_zero, mul_pow] at hrem
  norm_num [Nat.factorial] at hrem
  have hP : ((expPoly t : ℚ) : ℝ) = 8388609 / 2 ^ 23 + 1453635 / 2 ^ 21 * s + 1007583 / 2 ^ 22 * s ^ 2 + 14899259 / 2 ^ 28 * s ^ 3 +
      10327615 / 2 ^ 30 * s ^ 4 + 11448067 / 2 ^ 33 * s ^ 5 := by
    rw [expPoly]; push_cast; rfl
  rw [hP]
  have d : ∀ (c v : ℝ) (n : ℕ) (ε : ℝ), |c - v| ≤ ε → |c * s ^ n - v * s ^ n| ≤ ε := fun c v n ε h => by
    rw [← sub_mul, abs_mul, abs_of_nonneg (hp n).1]
    exact (mul_le_of_le_one_right (abs_nonneg _) (hp n).2).trans h
  have d1 := d (1453635 / 2 ^ 21) L 1 (1 / 10 ^ 8) (by rw [abs_le]; constructor <;> linarith)
  have d2 := d (1007583 / 2 ^ 22) (L ^ 2 / 2) 2 (1 / 10 ^ 7) (by rw [abs_le]; constructor <;> linarith)
  have d3 := d (14899259 / 2 ^ 28) (L ^ 3 / 6) 3 (1 / 10 ^ 7) (by rw [abs_le]; constructor <;> linarith)
  have d4 := d (10327615 / 2 ^ 30) (L ^ 4 / 24) 4 (1 / 10 ^ 6) (by rw [abs_le]; constructor <;> linarith)
  have d5 := d (11448067 / 2 ^ 33) (L ^ 5 / 120) 5 (1 / 10 ^ 6) (by rw [abs_le]; constructor <;> linarith)
  rw [pow_one] at d1
  have d1' := abs_le.1 d1
  have d2' := abs_le.1 d2
  have d3' := abs_le.1 d3
  have d4' := abs_le.1 d4
  have d5' := abs_le.1 d5
  have hr' := abs_le.1 hrem
  rw [abs_le]
  constructor <;> linarith [d1'.1, d1'.2, d2'.1, d2'.2, d3'.1, d3'.2, d4'.1, d4'.2, d5'.1, d5'.2, hr'.1, hr'.2]

/-- FINDING: the polynomial is the beginning of a longer one: at the right end of its range the error is more than `1.7·10⁻⁴`,
however many fraction bits there are, and the power of two jumps there. -/
theorem c89_exp2_jump : expPoly 1 < 2 - 17 / 100000 ∧ 1 < expPoly 0 := by
  constructor <;> norm_num [expPoly]

end Spu.Props

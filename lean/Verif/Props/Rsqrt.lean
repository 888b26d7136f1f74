import Verif.Props.RsqrtPoly
import Verif.Props.RsqrtComp

set_option autoImplicit false

/-! # C91: the reciprocal square root and the square root -/

namespace Spu.Props
open Spu.Model Spu.Model.HalRing Spu.Model.FxpDiv Spu.Model.ExpApprox Spu.Model.PolyApprox Spu.Spec.Rounding Spu.Spec.FxpDiv

/-- the reversed power of two of `rsqrt_init_guess` -/
theorem rsq_zrev (t f m : ℕ) (hf : 2 * f + 1 < 2 ^ t) (hm : m + 2 ≤ 2 * f) (z : BitVec (2 ^ t)) (hz : ∀ i, z.getLsbD i = decide (i = m + 1)) :
    ∃ r, Semi2kConv.bitrev z 0 (2 * f) = some r ∧ (maskNumberOfBits r (2 * f)).toInt = 2 ^ (2 * f - 2 - m) := by
  obtain ⟨r, hr, hb⟩ := c46_bitrev (Nat.zero_le (2 * f)) (by omega) z
  refine ⟨r, hr, toInt_twoPow_small _ (by omega) _ fun i => ?_⟩
  rw [c37_mask]
  by_cases hi : i < 2 ^ t
  · rw [hb i hi, hz]
    by_cases hi2 : i < 2 * f
    · simp only [Spec.revIdx, hi2, decide_true, Bool.and_true, Nat.zero_le, true_and, if_true, decide_eq_decide]
      omega
    · simp only [hi2, decide_false, Bool.and_false]
      symm; rw [decide_eq_false_iff_not]; omega
  · rw [BitVec.getLsbD_of_ge _ _ (by omega), Bool.false_and]
    symm; rw [decide_eq_false_iff_not]; omega

/-- the next power of two -/
theorem np2_bit (t m : ℕ) (x : BitVec (2 ^ t)) (h1 : 2 ^ m ≤ x.toNat) (h2 : x.toNat < 2 ^ (m + 1)) (hm : m + 1 < 2 ^ t) (i : ℕ) :
    (highestOneBit x <<< 1).getLsbD i = decide (i = m + 1) := by
  rw [BitVec.getLsbD_shiftLeft, highest_pow t x m h1 h2]
  by_cases hi : i = m + 1
  · subst hi; simp [hm]
  · have : ¬ (i - 1 = m ∧ 1 ≤ i) := by omega
    by_cases h0 : i < 1
    · simp [h0, hi]
    · have : ¬ i - 1 = m := by omega
      simp [this, hi]

/-- the value `X` split into a number between a quarter and a half and a power of two -/
theorem split_bits (f : ℕ) {t : ℕ} (x : BitVec (2 ^ t)) (h0 : 0 < val f x) (F : ℕ) (h1 : val f x * 2 ^ f < 2 ^ F) :
    ∃ m, m < F ∧ 2 ^ m ≤ x.toNat ∧ x.toNat < 2 ^ (m + 1) ∧ x.toInt = (x.toNat : ℤ) := by
  have hpf : (0 : ℚ) < 2 ^ f := by positivity
  have hxi0 : 0 < x.toInt := by
    have : 0 < (x.toInt : ℚ) := by rw [← val_mul_pow f x]; positivity
    exact_mod_cast this
  have hn : x.toInt = (x.toNat : ℤ) := by
    rw [BitVec.toInt_eq_toNat_cond] at hxi0 ⊢
    split at hxi0
    · rename_i hc; rw [if_pos hc]
    · have := x.isLt; omega
  have hx0 : x.toNat ≠ 0 := by omega
  refine ⟨Nat.log2 x.toNat, ?_, Nat.log2_self_le hx0, Nat.lt_log2_self, hn⟩
  rw [val_mul_pow, hn] at h1
  have h1 : x.toNat < 2 ^ F := by exact_mod_cast h1
  exact (Nat.pow_lt_pow_iff_right (by norm_num : 1 < 2)).1 ((Nat.log2_self_le hx0).trans_lt h1)

/-- the guess is the polynomial up to the errors of the truncation -/
theorem rsq_guess (t : ℕ) {f d : ℕ} (hf8 : 8 ≤ f) (hf : 2 * f + 1 < 2 ^ t) {R : ℤ} {T : ℕ → BitVec (2 ^ t) → BitVec (2 ^ t)}
    (ht : TruncOk f d R (T f)) (hR : R ≤ 2 ^ (2 ^ t - 1)) (hR3 : 2 ^ (3 * f) ≤ R) (hd : (d : ℚ) / 2 ^ f ≤ 1 / 256) (lower : Bool)
    (x : BitVec (2 ^ t)) (m : ℕ) (hm : m + 2 ≤ 2 * f) (h1 : 2 ^ m ≤ x.toNat) (h2 : x.toNat < 2 ^ (m + 1)) (hn : x.toInt = (x.toNat : ℤ)) :
    ∃ r, rsqrtGuess T f lower x (highestOneBit x <<< 1) = some r ∧
      |val f r - rsqP lower (x.toNat / 2 ^ (m + 2))| ≤ rsqW lower * (d / 2 ^ f) + 6 * (1 / 2 ^ f) := by
  have hw0 : 0 < 2 ^ t := by positivity
  have hpf : (0 : ℚ) < 2 ^ f := by positivity
  have hpp : (0 : ℚ) < 2 ^ (2 * f) := by positivity
  have hf256 : (256 : ℚ) ≤ 2 ^ f := by
    calc (256 : ℚ) = 2 ^ 8 := by norm_num
      _ ≤ 2 ^ f := pow_le_pow_right₀ (by norm_num) hf8
  have hRq : (R : ℚ) ≤ 2 ^ (2 ^ t - 1) := by exact_mod_cast hR
  have hR3q : 2 ^ (3 * f) ≤ (R : ℚ) := by exact_mod_cast hR3
  have h3 : (256 : ℚ) * 2 ^ (2 * f) ≤ 2 ^ (3 * f) := by
    rw [show 3 * f = f + 2 * f by ring, pow_add]
    exact mul_le_mul_of_nonneg_right hf256 hpp.le
  have h2f : (2 : ℚ) ^ f ≤ 2 ^ (2 * f) := pow_le_pow_right₀ (by norm_num) (by omega)
  obtain ⟨zr, hzr, hfac⟩ := rsq_zrev t f m hf hm _ (np2_bit t m x h1 h2 (by omega))
  set fac := maskNumberOfBits zr (2 * f) with hfacd
  set V : ℚ := x.toNat / 2 ^ (m + 2) with hV
  have hV1 : 1 / 4 ≤ V := by
    rw [hV, le_div_iff₀ (by positivity), pow_add]
    have : (2 : ℚ) ^ m ≤ x.toNat := by exact_mod_cast h1
    linarith
  have hV2 : V < 1 / 2 := by
    rw [hV, div_lt_iff₀ (by positivity), pow_succ]
    have : (x.toNat : ℚ) < 2 ^ (m + 1) := by exact_mod_cast h2
    linarith
  have hVx : val f x * val f fac = V := by
    rw [val, val, hfac, hn, hV]
    push_cast
    rw [div_mul_div_comm, ← pow_add, div_eq_div_iff (by positivity) (by positivity), mul_assoc, ← pow_add]
    congr 2; omega
  have hu := val_fmul hw0 ht hR x fac (by
    rw [hVx, abs_of_pos (by linarith)]
    nlinarith)
  rw [hVx] at hu
  obtain ⟨c1, c2, c3, c4, c5⟩ := rsq_coef lower
  obtain ⟨r, hr, hrc⟩ := c90_poly_const hw0 ht hR hd (rsqrtCoeffs lower).1.tail c4 (by omega)
    (by
      have : (1 + coefSum (rsqrtCoeffs lower).1.tail) * (26 / 25 * (26 / 25)) * 2 ^ (2 * f) < 256 * 2 ^ (2 * f) :=
        mul_lt_mul_of_pos_right (by linarith) hpp
      exact lt_of_lt_of_le this (h3.trans hR3q))
    (fmul (T f) x fac) V (by rw [abs_of_nonneg (by linarith)]; linarith) hu
  rw [← c3] at hr
  have hcb : |(rsqrtCoeffs lower).2.1| ≤ 5 * 2 ^ (rsqrtCoeffs lower).2.2 := by cases lower <;> decide
  have he := val_encZ hw0 f (rsqrtCoeffs lower).2.1 (rsqrtCoeffs lower).2.2 (by
    have b : (8 : ℤ) * 2 ^ f ≤ 2 ^ (2 ^ t - 1) := by
      calc (8 : ℤ) * 2 ^ f = 2 ^ (3 + f) := by rw [pow_add]; norm_num
        _ ≤ 2 ^ (2 ^ t - 1) := pow_le_pow_right₀ (by norm_num) (by omega)
    have p1 : (0 : ℤ) < 2 ^ f := by positivity
    have p2 : (0 : ℤ) < 2 ^ (rsqrtCoeffs lower).2.2 := by positivity
    calc _ ≤ 5 * 2 ^ (rsqrtCoeffs lower).2.2 * 2 ^ f := mul_le_mul_of_nonneg_right hcb p1.le
      _ < 8 * 2 ^ f * 2 ^ (rsqrtCoeffs lower).2.2 := by
        have := mul_pos p1 p2
        linarith
      _ ≤ _ := mul_le_mul_of_nonneg_right b p2.le)
  set c := encZ (2 ^ t) f (rsqrtCoeffs lower).2.1 (rsqrtCoeffs lower).2.2 with hcd
  have hcoef : |val f c - coef (rsqrtCoeffs lower).2| ≤ 1 / 2 ^ f := he.1
  have hc5 : |val f c| ≤ 5 := by
    refine he.2.trans ?_
    rw [div_le_iff₀ (by positivity)]
    exact_mod_cast hcb
  have hlen : ((rsqrtCoeffs lower).1.tail.length : ℚ) ≤ 4 := by exact_mod_cast c5
  have hu0 : (0 : ℚ) < 1 / 2 ^ f := by positivity
  have hu1 : (1 : ℚ) / 2 ^ f ≤ 1 / 256 := one_div_le_one_div_of_le (by norm_num) hf256
  have hd0 : (0 : ℚ) ≤ d / 2 ^ f := by positivity
  have hrc2 : |val f r - evalPoly (rsqrtCoeffs lower).1.tail V| ≤ rsqW lower * (d / 2 ^ f) + 5 * (1 / 2 ^ f) := by
    have a := mul_le_mul_of_nonneg_right c2 hd0
    have b : 26 / 25 * ((rsqrtCoeffs lower).1.tail.length : ℚ) * (1 / 2 ^ f) ≤ 5 * (1 / 2 ^ f) := mul_le_mul_of_nonneg_right (by linarith) hu0.le
    linarith
  have hW : rsqW lower * (d / 2 ^ f) ≤ 3 := by
    have : rsqW lower ≤ 593 := by cases lower <;> decide +kernel
    have w0 : 0 ≤ rsqW lower := by cases lower <;> decide +kernel
    calc _ ≤ 593 * (1 / 256 : ℚ) := mul_le_mul this hd hd0 (by norm_num)
      _ ≤ 3 := by norm_num
  have hS : |evalPoly (rsqrtCoeffs lower).1.tail V| ≤ 130 := by
    refine le_trans ?_ c1
    rw [evalPoly, coefSum]
    refine (Finset.abs_sum_le_sum_abs _ _).trans (Finset.sum_le_sum fun i _ => ?_)
    rw [abs_mul, abs_pow]
    refine mul_le_of_le_one_right (abs_nonneg _) (pow_le_one₀ (abs_nonneg _) ?_)
    rw [abs_of_nonneg (by linarith)]; linarith
  have hadd : val f (r + c) = val f r + val f c := by
    refine val_add hw0 f _ _ ?_
    have a := abs_add_le (val f r - evalPoly (rsqrtCoeffs lower).1.tail V) (evalPoly (rsqrtCoeffs lower).1.tail V)
    rw [sub_add_cancel] at a
    have b := abs_add_le (val f r) (val f c)
    have e : |val f r + val f c| * 2 ^ f ≤ 140 * 2 ^ f := mul_le_mul_of_nonneg_right (by linarith) hpf.le
    linarith
  refine ⟨r + c, ?_, ?_⟩
  · have hr' : polynomial T f (T f (x * fac)) (List.map (fun c => encZ (2 ^ t) f c.1 c.2) (rsqrtCoeffs lower).1) = some r := hr
    simp only [rsqrtGuess, hzr, Option.bind_eq_bind, Option.bind_some, ← hfacd, hr', ← hcd, Option.pure_def]
  · rw [hadd, rsqP_eq]
    have a := abs_add_le (val f r - evalPoly (rsqrtCoeffs lower).1.tail V) (val f c - coef (rsqrtCoeffs lower).2)
    rw [show val f r - evalPoly (rsqrtCoeffs lower).1.tail V + (val f c - coef (rsqrtCoeffs lower).2) =
      val f r + val f c - (evalPoly (rsqrtCoeffs lower).1.tail V + coef (rsqrtCoeffs lower).2) by ring] at a
    linarith

/-- from the square of a ratio to the ratio -/
theorem ratio_of_sq {a ε : ℝ} (ha : 0 ≤ a) (hε : ε ≤ 12 / 1000) (h : |a ^ 2 - 1| ≤ ε) : |a - 1| ≤ 6 / 10 * ε := by
  obtain ⟨h1, h2⟩ := abs_le.1 h
  have ha1 : 19 / 20 ≤ a := by nlinarith
  rw [abs_le]
  constructor <;> nlinarith

/-- where the powers of two fit: with an odd number of fraction bits two bits are lost -/
def rsqRange (f : ℕ) : ℚ := if f % 2 = 0 then 2 ^ (f - 1) else 2 ^ (f - 3)

/-- the relative error of the reciprocal square root -/
def rsqRho (lower : Bool) (f d : ℕ) : ℚ :=
  (if lower then 8 / 1000 else 2 / 10000) + (if lower then 20 else 500) * (d / 2 ^ f) + 6 / 2 ^ f + 1 / 2 ^ (f / 2)

set_option maxHeartbeats 1600000 in
/-- C91: the reciprocal square root of a secret between 0 and `2^(f-1)` or `2^(f-3)`. -/
theorem c91_rsqrt (t : ℕ) (h128 : 2 ^ (t + 1) ≤ 128) {f d : ℕ} (hf8 : 8 ≤ f) {R : ℤ} {T : ℕ → BitVec (2 ^ (t + 1)) → BitVec (2 ^ (t + 1))}
    (ht : TruncOk f d R (T f)) (hR : R ≤ 2 ^ (2 ^ (t + 1) - 1)) (hR3 : 2 ^ (3 * f) ≤ R) (hd : (d : ℚ) / 2 ^ f ≤ 1 / 256) (lower : Bool)
    (x : BitVec (2 ^ (t + 1))) (h0 : 0 < val f x) (h1 : val f x < rsqRange f) :
    ∃ r, rsqrt T f lower x = some r ∧
      |(val f r : ℝ) - 1 / √(val f x)| ≤ rsqRho lower f d * (1 / √(val f x)) + d / 2 ^ f := by
  have hw0 : 0 < 2 ^ (t + 1) := by positivity
  have h3w : 3 * f ≤ 2 ^ (t + 1) - 1 := by
    have : (2 : ℤ) ^ (3 * f) ≤ 2 ^ (2 ^ (t + 1) - 1) := hR3.trans hR
    exact (pow_le_pow_iff_right₀ (by norm_num)).1 this
  have hpf : (0 : ℚ) < 2 ^ f := by positivity
  have hRq : (R : ℚ) ≤ 2 ^ (2 ^ (t + 1) - 1) := by exact_mod_cast hR
  have hR3q : 2 ^ (3 * f) ≤ (R : ℚ) := by exact_mod_cast hR3
  have hf256 : (256 : ℚ) ≤ 2 ^ f := by
    calc (256 : ℚ) = 2 ^ 8 := by norm_num
      _ ≤ 2 ^ f := pow_le_pow_right₀ (by norm_num) hf8
  obtain ⟨m, hmF, hm1, hm2, hn⟩ := split_bits f x h0 (2 * (f / 2 * 2) - 1) (by
    refine (mul_lt_mul_of_pos_right h1 hpf).trans_le ?_
    rw [rsqRange]
    split
    · rw [← pow_add]; exact pow_le_pow_right₀ (by norm_num) (by omega)
    · rw [← pow_add]; exact pow_le_pow_right₀ (by norm_num) (by omega))
  obtain ⟨g, hg, hgc⟩ := rsq_guess (t + 1) hf8 (by omega) ht hR hR3 hd lower x m (by omega) hm1 hm2 hn
  have hcomp := comp_word t h128 f (m + 1) (by omega) (by omega) _ (np2_bit (t + 1) m x hm1 hm2 (by omega))
  have hlt : (m + 1) / 2 < f / 2 * 2 := by omega
  rw [if_pos hlt] at hcomp
  have hcc := comp_close f (m + 1) (by omega) hlt
  set C : ℕ := rsqC f (m + 1) * 2 ^ (f / 2 * 2 - 1 - (m + 1) / 2) with hC
  set K : ℝ := √(2 ^ (3 * f) / 2 ^ (m + 1 + 1)) with hK
  set V : ℚ := x.toNat / 2 ^ (m + 2) with hV
  have hV1 : 1 / 4 ≤ V := by
    rw [hV, le_div_iff₀ (by positivity), pow_add]
    have : (2 : ℚ) ^ m ≤ x.toNat := by exact_mod_cast hm1
    linarith
  have hV2 : V < 1 / 2 := by
    rw [hV, div_lt_iff₀ (by positivity), pow_succ (2 : ℚ) (m + 1)]
    have : (x.toNat : ℚ) < 2 ^ (m + 1) := by exact_mod_cast hm2
    linarith
  obtain ⟨hsq, hge⟩ := rsqP_sq lower V hV1 hV2.le
  -- real numbers
  have hV1r : (1 / 4 : ℝ) ≤ (V : ℝ) := by
    have : ((1 / 4 : ℚ) : ℝ) ≤ (V : ℝ) := by exact_mod_cast hV1
    push_cast at this; exact this
  have hV2r : (V : ℝ) ≤ 1 / 2 := by
    have : (V : ℝ) ≤ ((1 / 2 : ℚ) : ℝ) := by exact_mod_cast hV2.le
    push_cast at this; exact this
  set S : ℝ := √(V : ℝ) with hS
  have hS2 : S ^ 2 = V := Real.sq_sqrt (by linarith)
  have hS0 : 0 ≤ S := Real.sqrt_nonneg _
  have hS1 : 1 / 2 ≤ S := Real.le_sqrt_of_sq_le (by norm_num; linarith)
  have hS3 : S ≤ 3 / 4 := Real.sqrt_le_iff.2 ⟨by norm_num, by norm_num; linarith⟩
  have hp16 : (16 : ℝ) ≤ 2 ^ (f / 2) := by
    calc (16 : ℝ) = 2 ^ 4 := by norm_num
      _ ≤ 2 ^ (f / 2) := pow_le_pow_right₀ (by norm_num) (by omega)
  set θ : ℝ := 1 / 2 ^ (f / 2) with hθ
  have hθ0 : 0 < θ := by positivity
  have hθ1 : θ ≤ 1 / 16 := one_div_le_one_div_of_le (by norm_num) hp16
  have hK0 : 0 < K := Real.sqrt_pos.2 (by positivity)
  have hK2 : K ^ 2 = 2 ^ (3 * f) / 2 ^ (m + 2) := Real.sq_sqrt (by positivity)
  have hCK : |(C : ℝ) - K| ≤ θ * K := by
    refine hcc.trans (le_of_eq ?_)
    rw [hθ]; ring
  have hK32 : 32 * K ≤ 2 ^ (2 * f) := by
    have : K ≤ 2 ^ (2 * f - 5) := by
      refine Real.sqrt_le_iff.2 ⟨by positivity, ?_⟩
      rw [div_le_iff₀ (by positivity), ← pow_mul, ← pow_add]
      exact pow_le_pow_right₀ (by norm_num) (by omega)
    calc 32 * K ≤ 2 ^ 5 * 2 ^ (2 * f - 5) := by linarith
      _ = 2 ^ (2 * f) := by rw [← pow_add]; congr 1; omega
  obtain ⟨ck1, ck2⟩ := abs_le.1 hCK
  have hCle : (C : ℝ) ≤ 17 / 16 * K := by nlinarith
  have hC16 : (16 * C : ℝ) ≤ 2 ^ (2 * f) := by nlinarith
  have hC16q : (16 * C : ℚ) ≤ 2 ^ (2 * f) := by exact_mod_cast hC16
  have hp2R : (2 : ℚ) ^ (2 * f) ≤ 2 ^ (3 * f) := pow_le_pow_right₀ (by norm_num) (by omega)
  have hp20 : (0 : ℚ) < 2 ^ (2 * f) := by positivity
  have hcv : val f (BitVec.ofNat (2 ^ (t + 1)) C) = C / 2 ^ f := by
    rw [val_of_eq hw0 f _ (C : ℤ) (by rw [BitVec.ofInt_natCast])]
    · push_cast; rfl
    · push_cast
      rw [abs_of_nonneg (by positivity)]
      have : (0 : ℚ) ≤ C := by positivity
      linarith
  -- the guess in real numbers
  have hgr : |(val f g : ℝ) - (rsqP lower V : ℚ)| ≤ ((rsqW lower : ℚ) : ℝ) * (d / 2 ^ f) + 6 * (1 / 2 ^ f) := by
    have : |((val f g - rsqP lower V : ℚ) : ℝ)| ≤ ((rsqW lower * (d / 2 ^ f) + 6 * (1 / 2 ^ f) : ℚ) : ℝ) := by exact_mod_cast hgc
    push_cast at this ⊢; exact this
  set P : ℝ := ((rsqP lower V : ℚ) : ℝ) with hP
  have hP1 : 1 ≤ P := by rw [hP]; exact_mod_cast hge
  have hsqr : |P ^ 2 * V - 1| ≤ ((rsqEps lower : ℚ) : ℝ) := by
    have : |((rsqP lower V ^ 2 * V - 1 : ℚ) : ℝ)| ≤ ((rsqEps lower : ℚ) : ℝ) := by exact_mod_cast hsq
    push_cast at this; exact this
  have hε12 : ((rsqEps lower : ℚ) : ℝ) ≤ 12 / 1000 := by cases lower <;> norm_num [rsqEps]
  have hratio : |P * S - 1| ≤ 6 / 10 * ((rsqEps lower : ℚ) : ℝ) := by
    refine ratio_of_sq (by positivity) hε12 ?_
    rw [mul_pow, hS2]; exact hsqr
  set E : ℝ := ((rsqW lower : ℚ) : ℝ) * (d / 2 ^ f) + 6 * (1 / 2 ^ f) with hE
  have hdr : (d : ℝ) / 2 ^ f ≤ 1 / 256 := by
    have : (((d : ℚ) / 2 ^ f : ℚ) : ℝ) ≤ ((1 / 256 : ℚ) : ℝ) := by exact_mod_cast hd
    push_cast at this; exact this
  have hur : (1 : ℝ) / 2 ^ f ≤ 1 / 256 := one_div_le_one_div_of_le (by norm_num) (by exact_mod_cast hf256)
  have hd0 : (0 : ℝ) ≤ d / 2 ^ f := by positivity
  have hu0 : (0 : ℝ) ≤ 1 / 2 ^ f := by positivity
  have hW0 : (0 : ℝ) ≤ ((rsqW lower : ℚ) : ℝ) := by cases lower <;> norm_num [rsqW]
  have hW1 : ((rsqW lower : ℚ) : ℝ) ≤ 593 := by cases lower <;> norm_num [rsqW]
  have hE0 : 0 ≤ E := by rw [hE]; positivity
  have hE3 : E ≤ 5 / 2 := by
    have : ((rsqW lower : ℚ) : ℝ) * (d / 2 ^ f) ≤ 593 * (1 / 256) := mul_le_mul hW1 hdr hd0 (by norm_num)
    rw [hE]; linarith
  obtain ⟨g1, g2⟩ := abs_le.1 hgr
  obtain ⟨q1, q2⟩ := abs_le.1 hratio
  have hP3 : P ≤ 21 / 10 := by nlinarith
  have hgb : |(val f g : ℝ)| ≤ 5 := by rw [abs_le]; constructor <;> linarith
  have hgbq : |val f g| ≤ 5 := by exact_mod_cast hgb
  have hmul := val_fmul hw0 ht hR g (BitVec.ofNat (2 ^ (t + 1)) C) (by
    rw [hcv, abs_mul, abs_of_nonneg (by positivity : (0 : ℚ) ≤ C / 2 ^ f)]
    have a : |val f g| * (C / 2 ^ f) ≤ 5 * (C / 2 ^ f) := mul_le_mul_of_nonneg_right hgbq (by positivity)
    have b : 5 * ((C : ℚ) / 2 ^ f) * 2 ^ (2 * f) = 5 * C * 2 ^ f := by
      rw [two_mul, pow_add]; field_simp
    have c : (16 * C : ℚ) * 2 ^ f ≤ 2 ^ (3 * f) := by
      rw [show 3 * f = 2 * f + f by ring, pow_add]; exact mul_le_mul_of_nonneg_right hC16q hpf.le
    have e : (0 : ℚ) < 2 ^ (3 * f) := by positivity
    have := mul_le_mul_of_nonneg_right a hp20.le
    linarith)
  rw [hcv] at hmul
  refine ⟨fmul (T f) g (BitVec.ofNat (2 ^ (t + 1)) C), ?_, ?_⟩
  · simp only [rsqrt, hg, hcomp, Option.bind_eq_bind, Option.bind_some, Option.pure_def, fmul]
  have hmulr : |(val f (fmul (T f) g (BitVec.ofNat (2 ^ (t + 1)) C)) : ℝ) - val f g * (C / 2 ^ f)| ≤ d / 2 ^ f := by
    have : |((val f (fmul (T f) g (BitVec.ofNat (2 ^ (t + 1)) C)) - val f g * (C / 2 ^ f) : ℚ) : ℝ)| ≤ ((d / 2 ^ f : ℚ) : ℝ) := by exact_mod_cast hmul
    push_cast at this; exact this
  -- the reciprocal root
  have hpfr : (0 : ℝ) < 2 ^ f := by positivity
  have hY : 1 / √(val f x : ℝ) = K / 2 ^ f / S := by
    have hX : (val f x : ℝ) = (S / (K / 2 ^ f)) ^ 2 := by
      rw [div_pow, div_pow, hS2, hK2, hV, val, hn]
      push_cast
      rw [show 3 * f = f + f * 2 by ring, pow_add (2 : ℝ) f (f * 2), pow_mul (2 : ℝ) f 2]
      field_simp
    rw [hX, Real.sqrt_sq (by positivity), one_div_div]
  rw [hY]
  set Y : ℝ := K / 2 ^ f / S with hYd
  have hY0 : 0 < Y := by positivity
  have hKY : K / 2 ^ f = Y * S := by rw [hYd]; field_simp
  have hprod : (val f g : ℝ) * (C / 2 ^ f) = (val f g * S) * (C / K) * Y := by
    rw [hYd]; field_simp
  have hCr : |(C : ℝ) / K - 1| ≤ θ := by
    rw [show (C : ℝ) / K - 1 = (C - K) / K by field_simp, abs_div, abs_of_pos hK0, div_le_iff₀ hK0]; exact hCK
  have hgS : |(val f g : ℝ) * S - 1| ≤ 6 / 10 * ((rsqEps lower : ℚ) : ℝ) + 3 / 4 * E := by
    have a : |((val f g : ℝ) - P) * S| ≤ 3 / 4 * E := by
      rw [abs_mul, abs_of_nonneg hS0, mul_comm]
      exact mul_le_mul hS3 hgr (abs_nonneg _) (by norm_num)
    have b := abs_add_le (((val f g : ℝ) - P) * S) (P * S - 1)
    rw [show ((val f g : ℝ) - P) * S + (P * S - 1) = val f g * S - 1 by ring] at b
    linarith
  set A : ℝ := (val f g : ℝ) * S with hA
  set B : ℝ := (C : ℝ) / K with hB
  have hrel : |A * B - 1| ≤ 17 / 16 * (6 / 10 * ((rsqEps lower : ℚ) : ℝ) + 3 / 4 * E) + θ := by
    have hB2 : |B| ≤ 17 / 16 := by
      have := abs_add_le (B - 1) 1
      rw [sub_add_cancel, abs_one] at this; linarith
    have a : |(A - 1) * B| ≤ 17 / 16 * (6 / 10 * ((rsqEps lower : ℚ) : ℝ) + 3 / 4 * E) := by
      rw [abs_mul, mul_comm]
      exact mul_le_mul hB2 hgS (abs_nonneg _) (by norm_num)
    have b := abs_add_le ((A - 1) * B) (B - 1)
    rw [show (A - 1) * B + (B - 1) = A * B - 1 by ring] at b
    linarith
  have hrho : 17 / 16 * (6 / 10 * ((rsqEps lower : ℚ) : ℝ) + 3 / 4 * E) + θ ≤ ((rsqRho lower f d : ℚ) : ℝ) := by
    rw [hE, hθ]
    cases lower
    · simp only [rsqEps, rsqW, rsqRho, Bool.false_eq_true, if_false]
      push_cast
      rw [show (6 : ℝ) / 2 ^ f = 6 * (1 / 2 ^ f) by ring]
      linarith
    · simp only [rsqEps, rsqW, rsqRho, if_true]
      push_cast
      rw [show (6 : ℝ) / 2 ^ f = 6 * (1 / 2 ^ f) by ring]
      linarith
  have hfin : |(val f g : ℝ) * (C / 2 ^ f) - Y| ≤ ((rsqRho lower f d : ℚ) : ℝ) * Y := by
    rw [hprod, show A * B * Y - Y = (A * B - 1) * Y by ring, abs_mul, abs_of_pos hY0]
    exact mul_le_mul_of_nonneg_right (hrel.trans hrho) hY0.le
  have := abs_add_le ((val f (fmul (T f) g (BitVec.ofNat (2 ^ (t + 1)) C)) : ℝ) - val f g * (C / 2 ^ f)) (val f g * (C / 2 ^ f) - Y)
  rw [sub_add_sub_cancel] at this
  linarith

end Spu.Props

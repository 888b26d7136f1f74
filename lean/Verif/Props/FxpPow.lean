import Verif.Model.FxpPow
import Verif.Props.ExpSigmoid
import Verif.Props.LogApprox

set_option autoImplicit false

/-! # C99: power of secret fixed-point numbers -/

namespace Spu.Props
open Spu.Model Spu.Model.HalRing Spu.Model.FxpDiv Spu.Model.ExpApprox Spu.Model.PolyApprox Spu.Spec.FxpDiv Spu.Spec.Rounding

variable {w : ℕ}

/-- one bit of a word -/
theorem shr_and_bit (hw : 0 < w) (y : BitVec w) (k : ℕ) : (y >>> k) &&& 1 = bit (y.getLsbD k) := by
  apply BitVec.eq_of_getLsbD_eq
  intro i hi
  rw [getLsbD_bit hw, BitVec.getLsbD_and, BitVec.getLsbD_ushiftRight]
  by_cases h0 : i = 0
  · subst h0; simp [hw]
  · simp [h0]

/-- the first bit above the fraction is the parity of the floor -/
theorem bit_floor (f : ℕ) (hf : f < w) (y : BitVec w) : y.getLsbD f = decide (⌊val f y⌋ % 2 = 1) := by
  have hfl : ⌊val f y⌋ = y.toInt / 2 ^ f := by
    rw [val]
    have := Rat.floor_intCast_div_natCast y.toInt (2 ^ f)
    push_cast at this
    exact this
  have hw2 : (2 : ℤ) ^ w = 2 ^ f * (2 * 2 ^ (w - 1 - f)) := by
    rw [← pow_succ', ← pow_add]; congr 1; omega
  have hq : (y.toInt / 2 ^ f) % 2 = ((y.toNat / 2 ^ f : ℕ) : ℤ) % 2 := by
    rw [BitVec.toInt_eq_toNat_cond]
    push_cast
    split
    · rfl
    · rw [hw2, sub_eq_add_neg, ← mul_neg, Int.add_mul_ediv_left _ _ (by positivity)]
      omega
  rw [hfl, hq, BitVec.getLsbD, Nat.testBit_eq_decide_div_mod_eq, decide_eq_decide]
  omega

/-- the exponential of a number below 22 in magnitude -/
theorem expPade_close {f d : ℕ} (hf8 : 8 ≤ f) (hf : f + 34 ≤ w) {R : ℤ} {T : ℕ → BitVec w → BitVec w} (ht : TruncOk f d R (T f))
    (ht32 : TruncOk 32 d R (T 32)) (hR : R ≤ 2 ^ (w - 1)) (hR4 : 64 * 2 ^ (2 * f) ≤ R) (hR33 : 2 ^ (f + 33) ≤ R)
    (hd : (d : ℚ) / 2 ^ f ≤ 1 / 8) (hlim : LimitOk f d) (p : BitVec w) (hp : |val f p| ≤ 22) :
    ∃ r, expPade T f p = some r ∧ |(val f r : ℝ) - Real.exp (val f p)| ≤ Real.exp (val f p) * padeErr f d + d / 2 ^ f := by
  have hw0 : 0 < w := by omega
  have hpf : (0 : ℚ) < 2 ^ f := by positivity
  have hpz : (0 : ℤ) < 2 ^ f := by positivity
  have hffz : (2 : ℤ) ^ f ≤ 2 ^ (2 * f) := pow_le_pow_right₀ (by norm_num) (by omega)
  have hR4w : (64 : ℤ) * 2 ^ (2 * f) ≤ 2 ^ (w - 1) := hR4.trans hR
  set l : ℕ := 11629080 * 2 ^ f / 2 ^ 19 with hl
  have hl23 : l ≤ 23 * 2 ^ f := by
    rw [hl]; apply Nat.div_le_of_le_mul; rw [← mul_assoc]; exact Nat.mul_le_mul_right _ (by norm_num)
  have hl22 : 22 * 2 ^ f ≤ l := by
    rw [hl, Nat.le_div_iff_mul_le (by norm_num)]
    have : 0 < 2 ^ f := by positivity
    omega
  have hl23z : (l : ℤ) ≤ 23 * 2 ^ f := by exact_mod_cast hl23
  have hl22z : (22 : ℤ) * 2 ^ f ≤ l := by exact_mod_cast hl22
  have hpi : |p.toInt| ≤ 22 * 2 ^ f := by
    have : ((|p.toInt| : ℤ) : ℚ) ≤ 22 * 2 ^ f := by
      push_cast
      rw [← val_mul_pow f p, abs_mul, abs_of_pos hpf]
      exact mul_le_mul_of_nonneg_right hp hpf.le
    exact_mod_cast this
  have hpa := abs_le.1 hpi
  have hli : (kLimit w f).toInt = l := toInt_eq_of hw0 _ _ (by rw [kLimit, encF, ← hl, BitVec.ofInt_natCast]) (by omega) (by omega)
  have hni : (-kLimit w f).toInt = -(l : ℤ) := toInt_eq_of hw0 _ _ (by
    rw [kLimit, encF, ← hl, BitVec.ofInt_neg, BitVec.ofInt_natCast]) (by omega) (by omega)
  have hcl : clamp p (-kLimit w f) (kLimit w f) = p := by
    apply BitVec.eq_of_toInt_eq
    rw [c37_clamp hw0 p _ _ (by unfold NoOverflow; rw [hni]; omega) (by rw [hni, hli]; omega), hni, hli]
    omega
  obtain ⟨r, c, ⟨v, hv, hrv⟩, hc, he⟩ := c89_pade hf8 hf ht ht32 hR hR4 hR33 hd hlim 0 p (by rw [← hl]; omega)
  rw [← hl] at hc
  have h22 : (22 : ℚ) ≤ l / 2 ^ f := by
    rw [le_div_iff₀ hpf]; exact_mod_cast hl22
  have hb := abs_le.1 hp
  rw [min_eq_left (by linarith), max_eq_right (by linarith)] at hc
  rw [fExp, hcl] at hv
  subst hrv hc
  exact ⟨v, hv, he⟩

/-- the error of the logarithm of C90 -/
noncomputable def logErr (f d : ℕ) : ℝ := 11 / 10 ^ 6 + 12 * (d / 2 ^ f) + (9 + f) / 2 ^ f + f / 10 ^ 9

/-- C99: the power of two secrets: the power of the magnitude, negated for a negative base if the exponent rounded down is odd. -/
theorem c99_power (t : ℕ) {f d : ℕ} (hf8 : 8 ≤ f) (hf : 2 * f + 1 < 2 ^ t) (hf34 : f + 34 ≤ 2 ^ t) {R : ℤ}
    {T : ℕ → BitVec (2 ^ t) → BitVec (2 ^ t)} (ht : TruncOk f d R (T f)) (ht32 : TruncOk 32 d R (T 32)) (hR : R ≤ 2 ^ (2 ^ t - 1))
    (hRb : (64 + f) * 2 ^ (2 * f) ≤ R) (hR33 : 2 ^ (f + 33) ≤ R) (hd : (d : ℚ) / 2 ^ f ≤ 1 / 256) (hlim : LimitOk f d)
    (hpe : padeErr f d ≤ 1 / 2) (x y : BitVec (2 ^ t)) (h0 : val f x ≠ 0) (h1 : |val f x| < 2 ^ (f + 1))
    (hy : |(val f y : ℝ)| * |Real.log (val f x)| ≤ 21) (η : ℝ) (hη : η = |(val f y : ℝ)| * logErr f d + d / 2 ^ f) (hη1 : η ≤ 1) :
    ∃ r, FxpPow.power T f x y = some r ∧
      |(val f r : ℝ) - (if val f x < 0 ∧ ⌊val f y⌋ % 2 = 1 then -1 else 1) * |(val f x : ℝ)| ^ (val f y : ℝ)| ≤
        |(val f x : ℝ)| ^ (val f y : ℝ) * ((1 + 2 * η) * padeErr f d + 2 * η) + d / 2 ^ f := by
  have hw0 : 0 < 2 ^ t := by positivity
  have hpf : (0 : ℚ) < 2 ^ f := by positivity
  have hpp : (0 : ℚ) < 2 ^ (2 * f) := by positivity
  have hppz : (0 : ℤ) < 2 ^ (2 * f) := by positivity
  have hfz : (0 : ℤ) ≤ f * 2 ^ (2 * f) := by positivity
  have hRbq : (64 + f) * 2 ^ (2 * f) ≤ (R : ℚ) := by exact_mod_cast hRb
  have hRq : (R : ℚ) ≤ 2 ^ (2 ^ t - 1) := by exact_mod_cast hR
  have hfq : (0 : ℚ) ≤ f * 2 ^ (2 * f) := by positivity
  -- the sign
  have hneg : x.toInt < 0 ↔ val f x < 0 := by
    rw [← not_le, ← val_neg_iff f x, not_le]
  have hvneg : val f (-x) = -val f x := by
    refine val_neg hw0 f x ?_
    have h2 := mul_lt_mul_of_pos_right h1 hpf
    rw [show (2 : ℚ) ^ (f + 1) * 2 ^ f = 2 * 2 ^ (2 * f) by rw [two_mul f, pow_add, pow_succ]; ring] at h2
    linarith
  set a := mux (HalRing.msb x) (-x) x with ha
  have hav : val f a = |val f x| := by
    rw [ha, hal_msb hw0, c37_mux]
    by_cases hn : val f x < 0
    · rw [decide_eq_true (hneg.2 hn), if_pos rfl, hvneg, abs_of_neg hn]
    · rw [decide_eq_false (fun h => hn (hneg.1 h)), if_neg (by simp), abs_of_nonneg (not_lt.1 hn)]
  have hA0 : 0 < |val f x| := abs_pos.2 h0
  -- the logarithm
  obtain ⟨lg, hlg, hle⟩ := c90_log t hf8 hf ht hR (by linarith) hd a (by rw [hav]; exact hA0) (by rw [hav]; exact h1)
  rw [hav] at hle
  push_cast at hle
  rw [Real.log_abs] at hle
  set X : ℝ := ((val f x : ℚ) : ℝ) with hX
  set Y : ℝ := ((val f y : ℚ) : ℝ) with hY
  have hAr : 0 < |X| := by rw [hX]; exact_mod_cast hA0
  have hle' : |(val f lg : ℝ) - Real.log X| ≤ logErr f d := hle
  have hyl : |Y * (val f lg : ℝ) - Y * Real.log X| ≤ |Y| * logErr f d := by
    rw [← mul_sub, abs_mul]; exact mul_le_mul_of_nonneg_left hle' (abs_nonneg _)
  have hdr0 : (0 : ℝ) ≤ d / 2 ^ f := by positivity
  have hYL : |Y * Real.log X| ≤ 21 := by rw [abs_mul]; exact hy
  have hprod : |val f y * val f lg| ≤ 22 := by
    have h : |Y * (val f lg : ℝ)| ≤ 22 := by
      have := abs_add_le (Y * (val f lg : ℝ) - Y * Real.log X) (Y * Real.log X)
      rw [sub_add_cancel] at this
      linarith
    rw [hY] at h
    exact_mod_cast h
  have hm := val_fmul hw0 ht hR y lg (by
    have := mul_le_mul_of_nonneg_right hprod hpp.le
    linarith)
  set p := fmul (T f) y lg with hp
  have hmr := (Rat.cast_le (K := ℝ)).2 hm
  push_cast at hmr
  have hpe1 : |(val f p : ℝ) - Y * Real.log X| ≤ η := by
    have := abs_add_le ((val f p : ℝ) - Y * (val f lg : ℝ)) (Y * (val f lg : ℝ) - Y * Real.log X)
    rw [sub_add_sub_cancel] at this
    rw [hη]; linarith
  have hp22 : |val f p| ≤ 22 := by
    have h : |((val f p : ℚ) : ℝ)| ≤ 22 := by
      have := abs_add_le ((val f p : ℝ) - Y * Real.log X) (Y * Real.log X)
      rw [sub_add_cancel] at this
      linarith
    exact_mod_cast h
  -- the exponential
  obtain ⟨r, hr, hre⟩ := expPade_close hf8 hf34 ht ht32 hR (by linarith) hR33 (hd.trans (by norm_num)) hlim p hp22
  have hdr : (d : ℝ) / 2 ^ f ≤ 1 / 256 := by
    have := (Rat.cast_le (K := ℝ)).2 hd
    push_cast at this
    linarith
  have hE : |X| ^ Y = Real.exp (Y * Real.log X) := by
    rw [Real.rpow_def_of_pos hAr, Real.log_abs, mul_comm]
  set E := Real.exp (Y * Real.log X) with hEd
  have hEp : 0 < E := Real.exp_pos _
  set δ := (val f p : ℝ) - Y * Real.log X with hδ
  have hep : Real.exp (val f p) = E * Real.exp δ := by rw [hEd, ← Real.exp_add, hδ]; congr 1; ring
  have hx1 := (Real.abs_exp_sub_one_le (hpe1.trans hη1)).trans (mul_le_mul_of_nonneg_left hpe1 (by norm_num : (0 : ℝ) ≤ 2))
  have hpe0 : 0 ≤ padeErr f d := by unfold padeErr expErr; positivity
  have hmain : |(val f r : ℝ) - E| ≤ E * ((1 + 2 * η) * padeErr f d + 2 * η) + d / 2 ^ f := by
    have hu : Real.exp δ ≤ 1 + 2 * η := by have := (abs_le.1 hx1).2; linarith
    have q1 : E * Real.exp δ * padeErr f d ≤ E * ((1 + 2 * η) * padeErr f d) := by
      rw [mul_assoc]; exact mul_le_mul_of_nonneg_left (mul_le_mul_of_nonneg_right hu hpe0) hEp.le
    have q2 : |E * Real.exp δ - E| ≤ E * (2 * η) := by
      rw [show E * Real.exp δ - E = E * (Real.exp δ - 1) by ring, abs_mul, abs_of_pos hEp]
      exact mul_le_mul_of_nonneg_left hx1 hEp.le
    have := abs_add_le ((val f r : ℝ) - Real.exp (val f p)) (Real.exp (val f p) - E)
    rw [sub_add_sub_cancel] at this
    rw [hep] at this hre
    rw [mul_add]
    linarith
  -- the result can be negated
  have hrb : |val f r| < 2 ^ 33 := by
    have e1 : Real.exp (val f p) ≤ 2 ^ 32 := by
      have l2 := Real.log_two_gt_d9
      have : (2 : ℝ) ^ 32 = Real.exp (32 * Real.log 2) := by
        rw [mul_comm, ← Real.rpow_def_of_pos (by norm_num)]; norm_num
      rw [this]
      apply Real.exp_le_exp.2
      have h := (abs_le.1 hp22).2
      have h : ((val f p : ℚ) : ℝ) ≤ 22 := by exact_mod_cast h
      norm_num at l2
      linarith
    have e2 : Real.exp (val f p) * padeErr f d ≤ 2 ^ 32 * (1 / 2) := mul_le_mul e1 hpe hpe0 (by norm_num)
    have h : |((val f r : ℚ) : ℝ)| < 2 ^ 33 := by
      have := abs_add_le ((val f r : ℝ) - Real.exp (val f p)) (Real.exp (val f p))
      rw [sub_add_cancel, abs_of_pos (Real.exp_pos ((val f p : ℚ) : ℝ))] at this
      norm_num at e1 e2 ⊢
      linarith
    exact_mod_cast h
  have hrn : val f (-r) = -val f r := by
    refine val_neg hw0 f r ?_
    have := mul_lt_mul_of_pos_right hrb hpf
    refine this.trans_le ?_
    rw [← pow_add]
    exact pow_le_pow_right₀ (by norm_num) (by omega)
  refine ⟨_, by simp only [FxpPow.power, ← ha, hlg, Option.bind_eq_bind, Option.bind_some, ← hp, hr]; rfl, ?_⟩
  rw [hal_msb hw0, shr_and_bit hw0, and_bit, c37_mux, bit_floor f (by omega), hE]
  by_cases hc : val f x < 0 ∧ ⌊val f y⌋ % 2 = 1
  · rw [if_pos hc, if_pos (by simp [hneg.2 hc.1, hc.2]), hrn]
    push_cast
    rw [show -((val f r : ℚ) : ℝ) - -1 * E = -((val f r : ℝ) - E) by ring, abs_neg]
    exact hmain
  · rw [if_neg hc, if_neg (by rw [← hneg] at hc; simpa using hc), one_mul]
    exact hmain

/-- C99: integral exponents: the power of the base itself. -/
theorem c99_power_int (t : ℕ) {f d : ℕ} (hf8 : 8 ≤ f) (hf : 2 * f + 1 < 2 ^ t) (hf34 : f + 34 ≤ 2 ^ t) {R : ℤ}
    {T : ℕ → BitVec (2 ^ t) → BitVec (2 ^ t)} (ht : TruncOk f d R (T f)) (ht32 : TruncOk 32 d R (T 32)) (hR : R ≤ 2 ^ (2 ^ t - 1))
    (hRb : (64 + f) * 2 ^ (2 * f) ≤ R) (hR33 : 2 ^ (f + 33) ≤ R) (hd : (d : ℚ) / 2 ^ f ≤ 1 / 256) (hlim : LimitOk f d)
    (hpe : padeErr f d ≤ 1 / 2) (x y : BitVec (2 ^ t)) (h0 : val f x ≠ 0) (h1 : |val f x| < 2 ^ (f + 1)) (k : ℤ) (hk : val f y = k)
    (hy : |(k : ℝ)| * |Real.log (val f x)| ≤ 21) (η : ℝ) (hη : η = |(k : ℝ)| * logErr f d + d / 2 ^ f) (hη1 : η ≤ 1) :
    ∃ r, FxpPow.power T f x y = some r ∧
      |(val f r : ℝ) - (val f x : ℝ) ^ k| ≤ |(val f x : ℝ) ^ k| * ((1 + 2 * η) * padeErr f d + 2 * η) + d / 2 ^ f := by
  have hkr : ((val f y : ℚ) : ℝ) = k := by rw [hk]; push_cast; rfl
  obtain ⟨r, hr, he⟩ := c99_power t hf8 hf hf34 ht ht32 hR hRb hR33 hd hlim hpe x y h0 h1 (by rw [hkr]; exact hy) η (by rw [hkr]; exact hη) hη1
  refine ⟨r, hr, ?_⟩
  rw [hkr, Real.rpow_intCast, hk, Int.floor_intCast, ← abs_zpow] at he
  have hs : (if val f x < 0 ∧ k % 2 = 1 then -1 else 1) * |(val f x : ℝ) ^ k| = (val f x : ℝ) ^ k := by
    by_cases hn : val f x < 0
    · have hnr : ((val f x : ℚ) : ℝ) < 0 := by exact_mod_cast hn
      rcases Int.even_or_odd k with hev | hod
      · rw [if_neg (by rw [Int.even_iff] at hev; omega), one_mul, abs_of_nonneg (hev.zpow_nonneg _)]
      · rw [if_pos ⟨hn, Int.odd_iff.1 hod⟩, abs_of_neg (hod.zpow_neg hnr)]; ring
    · have hnr : (0 : ℝ) ≤ ((val f x : ℚ) : ℝ) := by exact_mod_cast not_lt.1 hn
      rw [if_neg (fun h => hn h.1), one_mul, abs_of_nonneg (zpow_nonneg hnr _)]
  rw [hs] at he
  exact he

/-- with 18 fraction bits in words of 64 bits: the third power of minus two -/
example : ∃ r, FxpPow.power (fun b (v : BitVec (2 ^ 6)) => v.sshiftRight b) 18 (BitVec.ofInt (2 ^ 6) (-2 ^ 19)) (BitVec.ofInt (2 ^ 6) (3 * 2 ^ 18)) = some r ∧
    |(val 18 r : ℝ) + 8| ≤ 1 / 50 := by
  have e : val 18 (BitVec.ofInt (2 ^ 6) (-2 ^ 19)) = -2 := by
    rw [val, show (BitVec.ofInt (2 ^ 6) (-2 ^ 19)).toInt = -2 ^ 19 by decide +kernel]; norm_num
  have e' : val 18 (BitVec.ofInt (2 ^ 6) (3 * 2 ^ 18)) = ((3 : ℤ) : ℚ) := by
    rw [val, show (BitVec.ofInt (2 ^ 6) (3 * 2 ^ 18)).toInt = 3 * 2 ^ 18 by decide +kernel]; norm_num
  obtain ⟨r, h1, h2⟩ := c99_power_int 6 (f := 18) (d := 1) (R := 2 ^ 62) (T := fun b (v : BitVec (2 ^ 6)) => v.sshiftRight b)
    (by norm_num) (by norm_num) (by norm_num) (truncOk_sar 18 _) (truncOk_sar 32 _) (by norm_num) (by norm_num) (by norm_num) (by norm_num)
    (c89_limit 18 (by norm_num) (by norm_num) 1 (by norm_num)) (by norm_num [padeErr, expErr])
    (BitVec.ofInt (2 ^ 6) (-2 ^ 19)) (BitVec.ofInt (2 ^ 6) (3 * 2 ^ 18)) (by rw [e]; norm_num) (by rw [e]; norm_num) 3 e'
    (by
      rw [e]; push_cast
      rw [Real.log_neg_eq_log, abs_of_pos (Real.log_pos (by norm_num))]
      have := Real.log_two_lt_d9
      norm_num at this ⊢
      linarith) _ rfl (by norm_num [logErr])
  refine ⟨r, h1, ?_⟩
  rw [e] at h2
  norm_num [padeErr, expErr, logErr] at h2
  norm_num
  linarith

/-- C99: outside: zero to the power one eighth comes out above one seventh, one half to the power 33 above one half, 100 to the power five below three -/
theorem c99_power_range : ∃ r s u,
    FxpPow.power (fun b (v : BitVec (2 ^ 6)) => v.sshiftRight b) 18 0 (BitVec.ofInt (2 ^ 6) (2 ^ 15)) = some r ∧
    FxpPow.power (fun b (v : BitVec (2 ^ 6)) => v.sshiftRight b) 18 (BitVec.ofInt (2 ^ 6) (2 ^ 17)) (BitVec.ofInt (2 ^ 6) (33 * 2 ^ 18)) = some s ∧
    FxpPow.power (fun b (v : BitVec (2 ^ 6)) => v.sshiftRight b) 18 (BitVec.ofInt (2 ^ 6) (100 * 2 ^ 18)) (BitVec.ofInt (2 ^ 6) (5 * 2 ^ 18)) = some u ∧
    1 / 7 < val 18 r ∧ 1 / 2 < val 18 s ∧ val 18 u < 3 := by
  refine ⟨BitVec.ofInt (2 ^ 6) 37541, BitVec.ofInt (2 ^ 6) 131084, BitVec.ofInt (2 ^ 6) 610286, by decide +kernel, by decide +kernel,
    by decide +kernel, ?_⟩
  rw [val, val, val, show (BitVec.ofInt (2 ^ 6) 37541).toInt = 37541 by decide +kernel,
    show (BitVec.ofInt (2 ^ 6) 131084).toInt = 131084 by decide +kernel, show (BitVec.ofInt (2 ^ 6) 610286).toInt = 610286 by decide +kernel]
  norm_num

end Spu.Props

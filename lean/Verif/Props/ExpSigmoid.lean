import Verif.Props.ExpMain

set_option autoImplicit false

/-! # C89: the sigmoids of secret fixed-point numbers -/

namespace Spu.Props
open Spu.Model Spu.Model.HalRing Spu.Model.FxpDiv Spu.Model.ExpApprox Spu.Spec.Rounding Spu.Spec.FxpDiv

variable {w : ℕ}

/-- an exponential with the error of 256-fold compounding gives a good sigmoid -/
theorem sigmoid_core (t e E : ℝ) (hE0 : 0 ≤ E) (hE : E ≤ 4 / 1000) (ht : -8 ≤ t)
    (hlo : Real.exp (-t) * (1 - t ^ 2 / 256) - E * max 1 (Real.exp (-t)) ≤ e) (hup : e ≤ Real.exp (-t) + E * max 1 (Real.exp (-t))) :
    49 / 50 ≤ 1 + e ∧ |1 / (1 + e) - 1 / (1 + Real.exp (-t))| ≤ 1 / 60 := by
  have ha := Real.exp_pos (-t)
  set a := Real.exp (-t) with had
  rcases le_total 0 t with h | h
  · have h1 : a ≤ 1 := by rw [had, Real.exp_le_one_iff]; linarith
    have h2 : a * t ^ 2 ≤ 2 := by
      have := Real.quadratic_le_exp_of_nonneg h
      have e1 : a * Real.exp t = 1 := by rw [had, ← Real.exp_add]; simp
      nlinarith
    rw [max_eq_left h1, mul_one] at hlo hup
    have hb : 49 / 50 ≤ 1 + e := by nlinarith
    have hA : 0 < 1 + a := by linarith
    have hB : 0 < 1 + e := by linarith
    refine ⟨hb, ?_⟩
    rw [div_sub_div _ _ hB.ne' hA.ne', abs_div, abs_of_pos (mul_pos hB hA), div_le_iff₀ (mul_pos hB hA)]
    have h3 : |1 * (1 + a) - (1 + e) * 1| ≤ 12 / 1000 := by rw [abs_le]; constructor <;> nlinarith
    have h4 : 49 / 50 ≤ (1 + e) * (1 + a) := by nlinarith
    linarith
  · have h1 : 1 ≤ a := by rw [had, Real.one_le_exp_iff]; linarith
    have h2 : t ^ 2 ≤ 2 * a := by
      have := Real.quadratic_le_exp_of_nonneg (x := -t) (by linarith)
      nlinarith
    have h3 : t ^ 2 ≤ 64 := by nlinarith
    rw [max_eq_right h1] at hlo hup
    have hEa : E * a ≤ 4 / 1000 * a := mul_le_mul_of_nonneg_right hE ha.le
    have hta : a * t ^ 2 ≤ a * 64 := mul_le_mul_of_nonneg_left h3 ha.le
    have hb : 74 / 100 * (1 + a) ≤ 1 + e := by nlinarith
    have hA : 0 < 1 + a := by linarith
    have hB : 0 < 1 + e := by linarith
    refine ⟨by linarith, ?_⟩
    rw [div_sub_div _ _ hB.ne' hA.ne', abs_div, abs_of_pos (mul_pos hB hA), div_le_iff₀ (mul_pos hB hA)]
    have h4 : 74 / 100 * (1 + a) ^ 2 ≤ (1 + e) * (1 + a) := by nlinarith
    have h5 : a * t ^ 2 ≤ 2 * (1 + a) ^ 2 := by
      have := mul_le_mul_of_nonneg_left h2 ha.le
      nlinarith
    have h6 : 4 / 1000 * a ≤ 1 / 1000 * (1 + a) ^ 2 := by nlinarith [sq_nonneg (1 - a)]
    have h7 : |1 * (1 + a) - (1 + e) * 1| ≤ 1 / 60 * (74 / 100 * (1 + a) ^ 2) := by
      rw [abs_le]; constructor <;> nlinarith
    linarith

theorem val_neg (hw : 0 < w) (f : ℕ) (x : BitVec w) (h : |val f x| * 2 ^ f < 2 ^ (w - 1)) : val f (-x) = -val f x := by
  rw [val_of_eq hw f _ (-x.toInt)]
  · push_cast; rw [val]; ring
  · rw [BitVec.ofInt_neg, ← ofInt_self]
  · push_cast
    rw [abs_neg, ← val_mul_pow f x, abs_mul, abs_of_pos (by positivity : (0 : ℚ) < 2 ^ f)]
    exact h

/-- the error of 256-fold compounding with 18 fraction bits -/
theorem compound_small {d : ℕ} (hd : d ≤ 2) : ((1 : ℝ) + d / 2 ^ 18) ^ 2 ^ (8 + 1) ≤ 2 ∧
    ((1 : ℝ) + d / 2 ^ 18) ^ (2 ^ (8 + 1) - 1) - 1 ≤ 4 / 1000 ∧ 0 ≤ ((1 : ℝ) + d / 2 ^ 18) ^ (2 ^ (8 + 1) - 1) - 1 := by
  have hdr : (d : ℝ) ≤ 2 := by exact_mod_cast hd
  have hu0 : (0 : ℝ) ≤ d / 2 ^ 18 := by positivity
  have hu : (d : ℝ) / 2 ^ 18 ≤ 1 / 131072 := by rw [div_le_iff₀ (by positivity)]; norm_num; linarith
  have h1 : ((1 : ℝ) + d / 2 ^ 18) ^ 2 ^ (8 + 1) ≤ 256 / 255 := by
    calc ((1 : ℝ) + d / 2 ^ 18) ^ 2 ^ (8 + 1) ≤ Real.exp (1 / 131072) ^ 2 ^ (8 + 1) :=
          pow_le_pow_left₀ (by linarith) (by have := Real.add_one_le_exp (1 / 131072 : ℝ); linarith) _
      _ = Real.exp (1 / 256) := by rw [← Real.exp_nat_mul]; norm_num
      _ ≤ 256 / 255 := by
          have := Real.add_one_le_exp (-(1 / 256) : ℝ)
          rw [Real.exp_neg] at this
          have hp := Real.exp_pos (1 / 256)
          have h2 : (255 / 256 : ℝ) ≤ (Real.exp (1 / 256))⁻¹ := by linarith
          have := inv_anti₀ (by norm_num) h2
          rw [inv_inv] at this
          linarith
  have h2 : ((1 : ℝ) + d / 2 ^ 18) ^ (2 ^ (8 + 1) - 1) ≤ ((1 : ℝ) + d / 2 ^ 18) ^ 2 ^ (8 + 1) :=
    pow_le_pow_right₀ (by linarith) (by norm_num)
  have h3 : (1 : ℝ) ≤ (1 + d / 2 ^ 18) ^ (2 ^ (8 + 1) - 1) := one_le_pow₀ (by linarith)
  generalize ((1 : ℝ) + d / 2 ^ 18) ^ 2 ^ (8 + 1) = A at *
  generalize ((1 : ℝ) + d / 2 ^ 18) ^ (2 ^ (8 + 1) - 1) = B at *
  refine ⟨?_, ?_, ?_⟩ <;> linarith

/-- C89: with the default parameters the sigmoid of a secret between -8 and 256 is within 1/50. -/
theorem c89_sigmoid {d : ℕ} (hd : d ≤ 2) (T : ℕ → BitVec 64 → BitVec 64) (ht : TruncOk 18 d (2 ^ 62) (T 18))
    (ht8 : TruncOk 8 d (2 ^ 62) (T 8)) (x : BitVec 64) (h1 : -8 ≤ val 18 x) (h2 : val 18 x ≤ 256) :
    ∃ r, sigmoidReal T 18 2 .taylor 8 x = some r ∧ |(val 18 r : ℝ) - 1 / (1 + Real.exp (-(val 18 x : ℝ)))| ≤ 1 / 50 := by
  have hxb : |val 18 x| ≤ 256 := abs_le.2 ⟨by linarith, h2⟩
  have hnx := val_neg (by norm_num) 18 x (by norm_num; linarith)
  have hnr : ((val 18 (-x) : ℚ) : ℝ) = -(val 18 x : ℝ) := by rw [hnx]; push_cast; rfl
  have hexp8 : Real.exp (-(val 18 x : ℝ)) ≤ 6561 := by
    have : (-8 : ℝ) ≤ (val 18 x : ℝ) := by exact_mod_cast h1
    calc Real.exp (-(val 18 x : ℝ)) ≤ Real.exp 8 := Real.exp_le_exp.2 (by linarith)
      _ = Real.exp 1 ^ 8 := by rw [← Real.exp_nat_mul]; norm_num
      _ ≤ 3 ^ 8 := pow_le_pow_left₀ (Real.exp_pos 1).le (by have := Real.exp_one_lt_d9; linarith) 8
      _ = 6561 := by norm_num
  have hmax : max 1 (Real.exp (-(val 18 x : ℝ))) ≤ 6561 := max_le (by norm_num) hexp8
  have hmax1 : 1 ≤ max 1 (Real.exp (-(val 18 x : ℝ))) := le_max_left _ _
  obtain ⟨hpow, hE, hE0⟩ := compound_small hd
  obtain ⟨E, hEd⟩ : ∃ E : ℝ, E = ((1 : ℝ) + d / 2 ^ 18) ^ (2 ^ (8 + 1) - 1) - 1 := ⟨_, rfl⟩
  obtain ⟨P, hPd⟩ : ∃ P : ℝ, P = ((1 : ℝ) + d / 2 ^ 18) ^ 2 ^ (8 + 1) := ⟨_, rfl⟩
  have hxi : |(-x).toInt| < 2 ^ 62 := by
    have h : ((|(-x).toInt| : ℤ) : ℚ) < 2 ^ 62 := by
      push_cast
      rw [← val_mul_pow 18 (-x), hnx, abs_mul, abs_neg]
      norm_num; linarith
    exact_mod_cast h
  have hH : P * max 1 (Real.exp (val 18 (-x))) * 2 ^ (2 * 18) < ((2 ^ 62 : ℤ) : ℝ) := by
    rw [hnr]
    rw [← hPd] at hpow
    have := mul_le_mul hpow hmax (by linarith) (by norm_num)
    norm_num at this ⊢; linarith
  rw [hPd] at hH
  obtain ⟨e, he, hlo, hup⟩ := c89_taylor_exp (by norm_num) (by norm_num : 8 ≠ 0) ht ht8 (by norm_num) (by norm_num) (-x) hxi
    (by rw [hnx, abs_neg]; exact hxb.trans (by norm_num)) hH
  rw [hnr, ← hEd] at hlo hup
  rw [← hEd] at hE hE0
  clear hH hpow hPd hEd
  have hlo' : Real.exp (-(val 18 x : ℝ)) * (1 - (val 18 x : ℝ) ^ 2 / 256) -
      E * max 1 (Real.exp (-(val 18 x : ℝ))) ≤ val 18 e := by
    rw [neg_sq, show (2 : ℝ) ^ 8 = 256 by norm_num] at hlo; exact hlo
  obtain ⟨hb, hc⟩ := sigmoid_core (val 18 x : ℝ) (val 18 e : ℝ) _ hE0 hE (by exact_mod_cast h1) hlo' hup
  have hee : (val 18 e : ℝ) ≤ 6600 := by
    refine hup.trans ?_
    have := mul_le_mul hE hmax (by linarith) (by norm_num)
    linarith
  have hbq : 49 / 50 ≤ 1 + val 18 e := by
    have : (((49 / 50 : ℚ)) : ℝ) ≤ ((1 + val 18 e : ℚ) : ℝ) := by push_cast; exact hb
    exact_mod_cast this
  have heq : val 18 e ≤ 6600 := by exact_mod_cast hee
  have hk := val_kOne (w := 64) (f := 18) (R := 2 ^ 62) (by norm_num) (by norm_num) (by norm_num)
  have hs : val 18 (kOne 64 18 + e) = 1 + val 18 e := by
    rw [val_add (by norm_num) 18 _ _ (by rw [hk, abs_of_pos (by linarith)]; norm_num; linarith), hk]
  have hpos : 0 < 1 + val 18 e := by linarith
  have hdq : (d : ℚ) ≤ 2 := by exact_mod_cast hd
  have hu : (d : ℚ) / 2 ^ 18 ≤ 1 / 131072 := by rw [div_le_iff₀ (by positivity)]; norm_num; linarith
  have hu0 : (0 : ℚ) ≤ d / 2 ^ 18 := by positivity
  obtain ⟨q, hq, hqc⟩ := c73_recip 6 18 d (2 ^ 62) (T 18) ht (by norm_num) (by norm_num)
    (by norm_num) (by norm_num) (by linarith) 2 2 (by simp [numIters]) (by linarith) (kOne 64 18 + e) (by rw [hs]; exact hpos.ne')
    (by rw [hs, abs_of_pos hpos]; norm_num; linarith) (by rw [hs, abs_of_pos hpos]; norm_num; linarith)
  refine ⟨q, by simp only [sigmoidReal, fExp, he]; exact hq, ?_⟩
  have hbd := errBound_two hu0 (hu.trans (by norm_num))
  rw [hs, abs_of_pos hpos] at hqc
  have hinv : 1 / (1 + val 18 e) ≤ 50 / 49 := by rw [div_le_div_iff₀ hpos (by norm_num)]; linarith
  have hinv0 : 0 ≤ 1 / (1 + val 18 e) := by positivity
  have hfin : |val 18 q - 1 / (1 + val 18 e)| ≤ 1 / 1000 := by
    refine hqc.trans ?_
    have hs0 : errBound (d / 2 ^ 18) 2 (1 / 10) (d / 2 ^ 18) + 4 * (d / 2 ^ 18) ≤ 1 / 2000 := by linarith
    have := mul_le_mul_of_nonneg_left hs0 hinv0
    linarith
  have hfr : |(val 18 q : ℝ) - 1 / (1 + (val 18 e : ℝ))| ≤ 1 / 1000 := by
    have : |((val 18 q - 1 / (1 + val 18 e) : ℚ) : ℝ)| ≤ ((1 / 1000 : ℚ) : ℝ) := by exact_mod_cast hfin
    push_cast at this; exact this
  have := abs_add_le ((val 18 q : ℝ) - 1 / (1 + (val 18 e : ℝ))) (1 / (1 + (val 18 e : ℝ)) - 1 / (1 + Real.exp (-(val 18 x : ℝ))))
  rw [sub_add_sub_cancel] at this
  linarith

/-- the arithmetic shift -/
def sar (b : ℕ) (v : BitVec w) : BitVec w := v.sshiftRight b

/-- C89: with the default parameters the sigmoid of 512 is about a half and that of 600 is zero, even with exact truncation. -/
theorem c89_sigmoid_far : sigmoidReal sar 18 2 .taylor 8 (BitVec.ofInt 64 (512 * 2 ^ 18)) = some (BitVec.ofInt 64 131071) ∧
    sigmoidReal sar 18 2 .taylor 8 (BitVec.ofInt 64 (600 * 2 ^ 18)) = some 0#64 := by
  constructor <;> decide +kernel

/-- the three segments -/
def seg3 (x : ℚ) : ℚ := if x < -4 then 0 else if 4 < x then 1 else 1 / 2 + x / 8

/-- the encodings of a half and an eighth are exact -/
theorem val_encF_exact (hw : 0 < w) (f m s : ℕ) (hs : s ≤ f) (h : m * 2 ^ (f - s) < 2 ^ (w - 1)) :
    (encF w f m s).toInt = m * 2 ^ (f - s) := by
  have e : m * 2 ^ f / 2 ^ s = m * 2 ^ (f - s) := by
    rw [show 2 ^ f = 2 ^ (f - s) * 2 ^ s by rw [← pow_add]; congr 1; omega, ← mul_assoc, Nat.mul_div_cancel _ (by positivity)]
  have hz : ((m * 2 ^ (f - s) : ℕ) : ℤ) < 2 ^ (w - 1) := by exact_mod_cast h
  rw [toInt_eq_of hw _ ((m * 2 ^ (f - s) : ℕ) : ℤ) (by rw [encF, e, BitVec.ofInt_natCast]) (by
    have : (0 : ℤ) < 2 ^ (w - 1) := by positivity
    have : (0 : ℤ) ≤ ((m * 2 ^ (f - s) : ℕ) : ℤ) := by positivity
    omega) hz]
  push_cast; rfl

/-- C89: `sigmoid_mm1` is a line. -/
theorem c89_mm1 (hw : 0 < w) {f d : ℕ} (hf3 : 3 ≤ f) {R : ℤ} {T : ℕ → BitVec w → BitVec w} (ht : TruncOk f d R (T f))
    (hR : R ≤ 2 ^ (w - 1)) (hR4 : 4 * 2 ^ (2 * f) ≤ R) (hd : (d : ℚ) / 2 ^ f ≤ 1 / 8) (x : BitVec w)
    (hx : |val f x| * 2 ^ (2 * f) < R) : |val f (sigmoidMm1 T f x) - (1 / 2 + val f x / 8)| ≤ d / 2 ^ f := by
  have hpf : (0 : ℚ) < 2 ^ f := by positivity
  have hRw : (4 : ℤ) * 2 ^ (2 * f) ≤ 2 ^ (w - 1) := hR4.trans hR
  have hffz : (2 : ℤ) ^ f ≤ 2 ^ (2 * f) := pow_le_pow_right₀ (by norm_num) (by omega)
  have hsm : ∀ s ≤ f, 1 * 2 ^ (f - s) < 2 ^ (w - 1) := fun s hs => by
    have a : (2 : ℤ) ^ (f - s) ≤ 2 ^ f := pow_le_pow_right₀ (by norm_num) (by omega)
    have b : (0 : ℤ) < 2 ^ f := by positivity
    have : (2 : ℤ) ^ (f - s) < 2 ^ (w - 1) := by omega
    rw [one_mul]; exact_mod_cast this
  have half : val f (encF w f 1 1) = 1 / 2 := by
    rw [val, val_encF_exact hw f 1 1 (by omega) (hsm 1 (by omega))]
    have : (2 : ℚ) ^ f = 2 ^ (f - 1) * 2 := by rw [← pow_succ]; congr 1; omega
    rw [this]; push_cast; field_simp
  have eighth : val f (encF w f 1 3) = 1 / 8 := by
    rw [val, val_encF_exact hw f 1 3 hf3 (hsm 3 hf3)]
    have : (2 : ℚ) ^ f = 2 ^ (f - 3) * 8 := by
      rw [show (8 : ℚ) = 2 ^ 3 by norm_num, ← pow_add]; congr 1; omega
    rw [this]; push_cast; field_simp
  have hp : |val f (encF w f 1 3) * val f x| * 2 ^ (2 * f) < R := by
    rw [eighth, abs_mul]; norm_num
    have : 0 ≤ |val f x| * 2 ^ (2 * f) := by positivity
    linarith
  have hm := val_fmul hw ht hR (encF w f 1 3) x hp
  rw [eighth] at hm
  have hRq : (R : ℚ) ≤ 2 ^ (w - 1) := by exact_mod_cast hR
  have hR4q : 4 * 2 ^ (2 * f) ≤ (R : ℚ) := by exact_mod_cast hR4
  have hff : (8 : ℚ) * 2 ^ f ≤ 2 ^ (2 * f) := by
    rw [two_mul, pow_add]
    refine mul_le_mul_of_nonneg_right ?_ hpf.le
    calc (8 : ℚ) = 2 ^ 3 := by norm_num
      _ ≤ 2 ^ f := pow_le_pow_right₀ (by norm_num) hf3
  have hsum : |val f (encF w f 1 1) + val f (fmul (T f) (encF w f 1 3) x)| * 2 ^ f < 2 ^ (w - 1) := by
    rw [half]
    have h1 : |1 / 2 + val f (fmul (T f) (encF w f 1 3) x)| ≤ 1 + |val f x| := by
      have := abs_le.1 hm
      have hxa := abs_le.1 (le_refl |val f x|)
      rw [abs_le]; constructor <;> linarith [hxa.1, hxa.2, abs_nonneg (val f x)]
    have h2 := mul_le_mul_of_nonneg_right h1 hpf.le
    have h3 : |val f x| * 2 ^ f ≤ |val f x| * 2 ^ (2 * f) / 8 := by
      have := mul_le_mul_of_nonneg_left hff (abs_nonneg (val f x))
      linarith
    have h4 : (0 : ℚ) < 2 ^ (2 * f) := by positivity
    nlinarith
  rw [sigmoidMm1, val_add hw f _ _ hsum, half]
  rw [show 1 / 2 + val f (fmul (T f) (encF w f 1 3) x) - (1 / 2 + val f x / 8) = val f (fmul (T f) (encF w f 1 3) x) - 1 / 8 * val f x by ring]
  exact hm

/-- C89: `sigmoid_seg3` is the piecewise linear function. -/
theorem c89_seg3 (hw : 0 < w) {f d : ℕ} (hf3 : 3 ≤ f) {R : ℤ} {T : ℕ → BitVec w → BitVec w} (ht : TruncOk f d R (T f))
    (hR : R ≤ 2 ^ (w - 1)) (hR4 : 4 * 2 ^ (2 * f) < R) (hd : (d : ℚ) / 2 ^ f ≤ 1 / 8) (x : BitVec w)
    (hx : |x.toInt| + 4 * 2 ^ f < 2 ^ (w - 1)) :
    (val f x < -4 → val f (sigmoidSeg3 T f x) = 0) ∧ (4 < val f x → val f (sigmoidSeg3 T f x) = 1) ∧
      |val f (sigmoidSeg3 T f x) - seg3 (val f x)| ≤ d / 2 ^ f := by
  have hpf : (0 : ℚ) < 2 ^ f := by positivity
  have hpz : (0 : ℤ) < 2 ^ f := by positivity
  have hRw : (4 : ℤ) * 2 ^ (2 * f) < 2 ^ (w - 1) := hR4.trans_le hR
  have hffz : (2 : ℤ) ^ f ≤ 2 ^ (2 * f) := pow_le_pow_right₀ (by norm_num) (by omega)
  have hu : (encF w f 4 0).toInt = 4 * 2 ^ f := by
    have := val_encF_exact hw f 4 0 (by omega) (by
      have : (4 * 2 ^ f : ℤ) < 2 ^ (w - 1) := by omega
      rw [Nat.sub_zero]; exact_mod_cast this)
    rw [this]; push_cast; rfl
  have hl : (-encF w f 4 0).toInt = -(4 * 2 ^ f) := toInt_eq_of hw _ _ (by
    rw [BitVec.ofInt_neg, ← hu, ← ofInt_self]) (by omega) (by omega)
  have hxa := abs_lt.1 (show |x.toInt| < 2 ^ (w - 1) - 4 * 2 ^ f by linarith)
  have e : sigmoidSeg3 T f x = if x.toInt < -(4 * 2 ^ f) then 0 else if 4 * 2 ^ f < x.toInt then kOne w f else sigmoidMm1 T f x := by
    simp only [sigmoidSeg3]
    rw [less_ok hw (x := encF w f 4 0) (y := x) (by unfold NoOverflow; rw [hu]; omega),
      less_ok hw (x := x) (y := -encF w f 4 0) (by unfold NoOverflow; rw [hl]; omega), c37_mux, c37_mux, hu, hl]
    simp only [decide_eq_true_eq]
  have c1 : x.toInt < -(4 * 2 ^ f) ↔ val f x < -4 := by
    rw [val, div_lt_iff₀ hpf, show (-4 : ℚ) * 2 ^ f = ((-(4 * 2 ^ f) : ℤ) : ℚ) by push_cast; ring, Int.cast_lt]
  have c2 : 4 * 2 ^ f < x.toInt ↔ 4 < val f x := by
    rw [val, lt_div_iff₀ hpf, show (4 : ℚ) * 2 ^ f = ((4 * 2 ^ f : ℤ) : ℚ) by push_cast; ring, Int.cast_lt]
  have hone := val_kOne (f := f) hw hR hR4.le
  have hzero : val f (0 : BitVec w) = 0 := by rw [val, show (0 : BitVec w).toInt = 0 by simp]; simp
  have hd0 : (0 : ℚ) ≤ d / 2 ^ f := by positivity
  rw [e]
  simp only [c1, c2]
  refine ⟨fun h => by rw [if_pos h, hzero], fun h => by rw [if_neg (by linarith), if_pos h, hone], ?_⟩
  rw [seg3]
  split
  · rw [hzero]; simpa using hd0
  · split
    · rw [hone]; simpa using hd0
    · next h1 h2 =>
      refine c89_mm1 hw hf3 ht hR hR4.le hd x ?_
      have : |val f x| ≤ 4 := abs_le.2 ⟨by linarith, by linarith⟩
      have hR4q : 4 * 2 ^ (2 * f) < (R : ℚ) := by exact_mod_cast hR4
      have := mul_le_mul_of_nonneg_right this (by positivity : (0 : ℚ) ≤ 2 ^ (2 * f))
      linarith

/-- the hypotheses hold for 64 bits, 18 fraction bits and exact truncation -/
example : ∃ r, sigmoidReal sar 18 2 .taylor 8 (BitVec.ofInt 64 (-(2 ^ 18))) = some r ∧
    |(val 18 r : ℝ) - 1 / (1 + Real.exp 1)| ≤ 1 / 50 := by
  have e : val 18 (BitVec.ofInt 64 (-(2 ^ 18))) = -1 := by
    rw [val, show (BitVec.ofInt 64 (-(2 ^ 18))).toInt = -(2 ^ 18) by decide]; norm_num
  have := c89_sigmoid (d := 1) (by norm_num) sar (truncOk_sar 18 _) (truncOk_sar 8 _) (BitVec.ofInt 64 (-(2 ^ 18))) (by rw [e]; norm_num) (by rw [e]; norm_num)
  rw [e] at this
  simpa using this

example : ∃ r, exp2Pade sar 18 (BitVec.ofInt 64 (5 * 2 ^ 18 + 2 ^ 17)) = some r ∧
    |(val 18 r : ℝ) - (2 : ℝ) ^ (11 / 2 : ℝ)| ≤ 32 * (1 / 5000 + 15 / 2 / 2 ^ 18) := by
  have e : val 18 (BitVec.ofInt 64 (5 * 2 ^ 18 + 2 ^ 17)) = 11 / 2 := by
    rw [val, show (BitVec.ofInt 64 (5 * 2 ^ 18 + 2 ^ 17)).toInt = 5 * 2 ^ 18 + 2 ^ 17 by decide]; norm_num
  obtain ⟨r, h1, h2⟩ := c89_exp2 (w := 64) (f := 18) (d := 1) (R := 2 ^ 62) (by norm_num) (by norm_num) (T := sar) (truncOk_sar 18 _) (truncOk_sar 32 _)
    (by norm_num) (by norm_num) (by norm_num) (by norm_num) (BitVec.ofInt 64 (5 * 2 ^ 18 + 2 ^ 17)) (by rw [e]; norm_num) (by rw [e]; norm_num)
  refine ⟨r, h1, ?_⟩
  rw [e, show ⌊(11 / 2 : ℚ)⌋ = 5 by rw [Int.floor_eq_iff]; norm_num] at h2
  rw [expErr] at h2
  norm_num at h2 ⊢
  exact h2

example : ∃ r c : ℚ, (∃ v, fExp sar 18 .pade 8 (BitVec.ofInt 64 (-(2 ^ 19))) = some v ∧ r = val 18 v) ∧ c = -2 ∧
    |(r : ℝ) - Real.exp c| ≤ Real.exp c * padeErr 18 1 + 1 / 2 ^ 18 := by
  have e : val 18 (BitVec.ofInt 64 (-(2 ^ 19))) = -2 := by
    rw [val, show (BitVec.ofInt 64 (-(2 ^ 19))).toInt = -(2 ^ 19) by decide]; norm_num
  obtain ⟨r, c, h1, h2, h3⟩ := c89_pade (w := 64) (f := 18) (d := 1) (R := 2 ^ 62) (by norm_num) (by norm_num) (T := sar) (truncOk_sar 18 _)
    (truncOk_sar 32 _) (by norm_num) (by norm_num) (by norm_num) (by norm_num) (c89_limit 18 (by norm_num) (by norm_num) 1 (by norm_num)) 8
    (BitVec.ofInt 64 (-(2 ^ 19))) (by decide)
  refine ⟨r, c, h1, ?_, by simpa using h3⟩
  rw [h2, e]; norm_num

example : |val 18 (sigmoidSeg3 sar 18 (BitVec.ofInt 64 (2 ^ 18))) - 5 / 8| ≤ 1 / 2 ^ 18 := by
  have e : val 18 (BitVec.ofInt 64 (2 ^ 18)) = 1 := by
    rw [val, show (BitVec.ofInt 64 (2 ^ 18)).toInt = 2 ^ 18 by decide]; norm_num
  have := (c89_seg3 (w := 64) (f := 18) (d := 1) (R := 2 ^ 62) (by norm_num) (by norm_num) (T := sar) (truncOk_sar 18 _) (by norm_num) (by norm_num)
    (by norm_num) (BitVec.ofInt 64 (2 ^ 18)) (by decide)).2.2
  rw [e] at this
  norm_num [seg3] at this ⊢
  exact this

end Spu.Props

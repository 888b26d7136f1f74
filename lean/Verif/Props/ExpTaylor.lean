import Verif.Model.ExpApprox
import Verif.Props.FxpDiv
import Mathlib.Analysis.SpecialFunctions.Exp
import Mathlib.Analysis.Complex.Exponential

set_option autoImplicit false

/-! # C89: the exponential by repeated squaring, and the sigmoid built on it -/

namespace Spu.Props
open Spu.Model Spu.Model.HalRing Spu.Model.FxpDiv Spu.Model.ExpApprox Spu.Spec.Rounding Spu.Spec.FxpDiv

variable {w : ℕ}

/-- truncation by `b` bits of a number with `f` fraction bits -/
theorem val_trunc {f b d : ℕ} {R : ℤ} {trunc : BitVec w → BitVec w} (ht : TruncOk b d R trunc) (x : BitVec w) (hx : |x.toInt| < R) :
    |val f (trunc x) - val f x / 2 ^ b| ≤ d / 2 ^ f := by
  have h := ht x hx
  have hq : |((2 ^ b * (trunc x).toInt - x.toInt : ℤ) : ℚ)| ≤ d * 2 ^ b := by exact_mod_cast h
  have e : ((2 ^ b * (trunc x).toInt - x.toInt : ℤ) : ℚ) = (val f (trunc x) - val f x / 2 ^ b) * (2 ^ b * 2 ^ f) := by
    rw [val, val]; push_cast; field_simp
  rw [e, abs_mul, abs_of_pos (by positivity : (0 : ℚ) < 2 ^ b * 2 ^ f), mul_comm ((2 : ℚ) ^ b), ← mul_assoc] at hq
  rw [le_div_iff₀ (by positivity)]
  exact le_of_mul_le_mul_right hq (by positivity)

/-- repeated squaring multiplies the exponent of the error factor by two and adds one -/
theorem squares_close (hw : 0 < w) {f d : ℕ} {R : ℤ} {T : ℕ → BitVec w → BitVec w} (ht : TruncOk f d R (T f)) (hR : R ≤ 2 ^ (w - 1))
    (n : ℕ) (a : ℕ) (y M : ℚ) (hM : 1 ≤ M) (hy : |y| ≤ M) (r : BitVec w)
    (hr : |val f r - y| ≤ ((1 + d / 2 ^ f) ^ a - 1) * M)
    (hH : (1 + d / 2 ^ f : ℚ) ^ ((a + 1) * 2 ^ n) * M ^ 2 ^ n * 2 ^ (2 * f) < R) :
    |val f (squares T f n r) - y ^ 2 ^ n| ≤ ((1 + d / 2 ^ f) ^ ((a + 1) * 2 ^ n - 1) - 1) * M ^ 2 ^ n := by
  induction n generalizing a y M r with
  | zero => simpa [squares] using hr
  | succ n ih =>
    set δ : ℚ := d / 2 ^ f with hδ
    have hδ0 : 0 ≤ δ := by positivity
    have hp1 : ∀ k, 1 ≤ (1 + δ) ^ k := fun k => one_le_pow₀ (by linarith)
    have hM0 : 0 ≤ M := by linarith
    have hA := hp1 a
    have hv : |val f r| ≤ (1 + δ) ^ a * M := by
      have : |val f r| ≤ |val f r - y| + |y| := by simpa using abs_add_le (val f r - y) y
      nlinarith
    have hv2 : |val f r * val f r| ≤ (1 + δ) ^ (2 * a) * M ^ 2 := by
      rw [abs_mul, show 2 * a = a + a by ring, pow_add]
      nlinarith [mul_self_le_mul_self (abs_nonneg (val f r)) hv]
    have hrange : |val f r * val f r| * 2 ^ (2 * f) < R := by
      refine lt_of_le_of_lt (mul_le_mul_of_nonneg_right (hv2.trans ?_) (by positivity)) hH
      refine mul_le_mul (pow_le_pow_right₀ (by linarith) ?_) (pow_le_pow_right₀ hM ?_) (by positivity) (by positivity)
      · have : 2 ≤ 2 ^ (n + 1) := by rw [pow_succ]; have := Nat.one_le_two_pow (n := n); omega
        nlinarith
      · rw [pow_succ]; have := Nat.one_le_two_pow (n := n); omega
    have hs := val_fmul hw ht hR r r hrange
    have hnext : |val f (fsquare T f r) - y ^ 2| ≤ ((1 + δ) ^ (2 * a + 1) - 1) * M ^ 2 := by
      have h1 : |val f r * val f r - y ^ 2| ≤ ((1 + δ) ^ (2 * a) - 1) * M ^ 2 := by
        have e : val f r * val f r - y ^ 2 = (val f r - y) * (val f r + y) := by ring
        rw [e, abs_mul]
        have h2 : |val f r + y| ≤ ((1 + δ) ^ a + 1) * M := by
          have := abs_add_le (val f r) y
          linarith
        have := mul_le_mul hr h2 (abs_nonneg _) (mul_nonneg (by linarith) hM0)
        refine this.trans (le_of_eq ?_)
        rw [show 2 * a = a + a by ring, pow_add]; ring
      have h3 : |val f (fsquare T f r) - y ^ 2| ≤ δ + ((1 + δ) ^ (2 * a) - 1) * M ^ 2 := by
        have := abs_add_le (val f (fsquare T f r) - val f r * val f r) (val f r * val f r - y ^ 2)
        rw [sub_add_sub_cancel] at this
        have hs' : |val f (fsquare T f r) - val f r * val f r| ≤ δ := hs
        linarith
      refine h3.trans ?_
      have hM2 : 1 ≤ M ^ 2 := one_le_pow₀ hM
      have hA2 := hp1 (2 * a)
      rw [pow_succ (1 + δ) (2 * a)]
      have hAM : 1 ≤ (1 + δ) ^ (2 * a) * M ^ 2 := one_le_mul_of_one_le_of_one_le hA2 hM2
      have := mul_le_mul_of_nonneg_left hAM hδ0
      linarith
    have e1 : (2 * a + 1 + 1) * 2 ^ n = (a + 1) * 2 ^ (n + 1) := by rw [pow_succ]; ring
    have e2 : ∀ z : ℚ, (z ^ 2) ^ 2 ^ n = z ^ 2 ^ (n + 1) := fun z => by rw [← pow_mul, pow_succ, mul_comm]
    have hyM : |y ^ 2| ≤ M ^ 2 := by rw [abs_pow]; exact pow_le_pow_left₀ (abs_nonneg _) hy 2
    have := ih (2 * a + 1) (y ^ 2) (M ^ 2) (one_le_pow₀ hM) hyM (fsquare T f r) hnext (by rw [e1, e2]; exact hH)
    rw [e1, e2, e2] at this
    exact this

/-- C89: `exp_taylor` computes `(1 + x/2^n)^(2^n)`, for every `x` for which nothing overflows; the error grows with the number of
truncations (`M` bounds `|1 + x/2^n|`). -/
theorem c89_taylor_poly (hw : 0 < w) {f d n : ℕ} (hn : n ≠ 0) {R : ℤ} {T : ℕ → BitVec w → BitVec w} (ht : TruncOk f d R (T f))
    (htn : TruncOk n d R (T n)) (hR : R ≤ 2 ^ (w - 1)) (hR4 : 4 * 2 ^ (2 * f) ≤ R) (x : BitVec w) (hx : |x.toInt| < R)
    (M : ℚ) (hM : 1 ≤ M) (hxM : |1 + val f x / 2 ^ n| ≤ M)
    (hH : (1 + d / 2 ^ f : ℚ) ^ 2 ^ (n + 1) * M ^ 2 ^ n * 2 ^ (2 * f) < R) :
    ∃ r, expTaylor T f n x = some r ∧
      |val f r - (1 + val f x / 2 ^ n) ^ 2 ^ n| ≤ ((1 + d / 2 ^ f) ^ (2 ^ (n + 1) - 1) - 1) * M ^ 2 ^ n := by
  refine ⟨_, if_neg hn, ?_⟩
  have hδ0 : (0 : ℚ) ≤ d / 2 ^ f := by positivity
  have h1 := val_trunc (f := f) htn x hx
  have hk := val_kOne (f := f) hw hR hR4
  have hb : |val f (T n x) + val f (kOne w f)| ≤ (1 + d / 2 ^ f) * M := by
    rw [hk]
    have := abs_add_le (val f (T n x) - val f x / 2 ^ n) (1 + val f x / 2 ^ n)
    rw [show val f (T n x) - val f x / 2 ^ n + (1 + val f x / 2 ^ n) = val f (T n x) + 1 by ring] at this
    nlinarith
  have hlt : |val f (T n x) + val f (kOne w f)| * 2 ^ f < 2 ^ (w - 1) := by
    have hRq : (R : ℚ) ≤ 2 ^ (w - 1) := by exact_mod_cast hR
    refine lt_of_lt_of_le (lt_of_le_of_lt ?_ hH) hRq
    refine mul_le_mul (hb.trans (mul_le_mul ?_ ?_ (by linarith) (by positivity))) (pow_le_pow_right₀ (by norm_num) (by omega)) (by positivity)
      (mul_nonneg (by positivity) (by positivity))
    · exact le_self_pow₀ (by linarith) (by positivity)
    · exact le_self_pow₀ hM (by positivity)
  have hsum := val_add hw f _ _ hlt
  have := squares_close hw ht hR n 1 (1 + val f x / 2 ^ n) M hM hxM (T n x + kOne w f) (by
    rw [hsum, hk, pow_one, add_sub_cancel_left, show val f (T n x) + 1 - (1 + val f x / 2 ^ n) = val f (T n x) - val f x / 2 ^ n by ring]
    exact h1.trans (by nlinarith)) (by rw [show (1 + 1) * 2 ^ n = 2 ^ (n + 1) by rw [pow_succ]; ring]; exact hH)
  rwa [show (1 + 1) * 2 ^ n = 2 ^ (n + 1) by rw [pow_succ]; ring] at this

/-- the limit formula against the exponential -/
theorem one_add_pow_exp (N : ℕ) (hN : 0 < N) (x : ℝ) (hx : -N ≤ x) : (1 + x / N) ^ N ≤ Real.exp x ∧
    (x ≤ N → Real.exp x * (1 - x ^ 2 / N) ≤ (1 + x / N) ^ N) := by
  have hN' : (0 : ℝ) < N := by exact_mod_cast hN
  set t := x / N with ht
  have hxt : x = N * t := by rw [ht]; field_simp
  have h0 : 0 ≤ 1 + t := by
    have : -1 ≤ t := by rw [ht, le_div_iff₀ hN']; linarith
    linarith
  have hexp : Real.exp x = Real.exp t ^ N := by rw [hxt, Real.exp_nat_mul]
  refine ⟨?_, fun hx2 => ?_⟩
  · rw [hexp]
    exact pow_le_pow_left₀ h0 (by rw [add_comm]; exact Real.add_one_le_exp t) N
  · have ht1 : t ≤ 1 := by rw [ht, div_le_one hN']; exact hx2
    have h1 : Real.exp t * (1 - t ^ 2) ≤ 1 + t := by
      have h2 : Real.exp t * (1 - t) ≤ 1 := by
        have := Real.add_one_le_exp (-t)
        have h3 := mul_le_mul_of_nonneg_left this (Real.exp_pos t).le
        rw [← Real.exp_add, add_neg_cancel, Real.exp_zero] at h3
        linarith
      calc Real.exp t * (1 - t ^ 2) = (Real.exp t * (1 - t)) * (1 + t) := by ring
        _ ≤ 1 * (1 + t) := mul_le_mul_of_nonneg_right h2 h0
        _ = 1 + t := one_mul _
    have ht2 : t ^ 2 ≤ 1 := by nlinarith
    have hB : 1 - (N : ℝ) * t ^ 2 ≤ (1 - t ^ 2) ^ N := by
      have := one_add_mul_le_pow (a := -t ^ 2) (by linarith) N
      rw [← sub_eq_add_neg] at this
      linarith
    rw [show x ^ 2 / N = N * t ^ 2 by rw [hxt]; field_simp, hexp]
    calc Real.exp t ^ N * (1 - N * t ^ 2) ≤ Real.exp t ^ N * (1 - t ^ 2) ^ N :=
          mul_le_mul_of_nonneg_left hB (by positivity)
      _ = (Real.exp t * (1 - t ^ 2)) ^ N := (mul_pow _ _ _).symm
      _ ≤ (1 + t) ^ N := pow_le_pow_left₀ (mul_nonneg (Real.exp_pos t).le (by linarith)) h1 N

/-- C89: between `-2^n` and `2^n` the result is close to the exponential: too small by at most the relative error `x²/2^n` of the
formula, up to the truncation errors. -/
theorem c89_taylor_exp (hw : 0 < w) {f d n : ℕ} (hn : n ≠ 0) {R : ℤ} {T : ℕ → BitVec w → BitVec w} (ht : TruncOk f d R (T f))
    (htn : TruncOk n d R (T n)) (hR : R ≤ 2 ^ (w - 1)) (hR4 : 4 * 2 ^ (2 * f) ≤ R) (x : BitVec w) (hx : |x.toInt| < R)
    (h1 : |val f x| ≤ 2 ^ n)
    (hH : (1 + d / 2 ^ f : ℝ) ^ 2 ^ (n + 1) * max 1 (Real.exp (val f x)) * 2 ^ (2 * f) < R) :
    ∃ r, expTaylor T f n x = some r ∧
      Real.exp (val f x) * (1 - (val f x) ^ 2 / 2 ^ n) - ((1 + d / 2 ^ f) ^ (2 ^ (n + 1) - 1) - 1) * max 1 (Real.exp (val f x)) ≤ val f r ∧
      val f r ≤ Real.exp (val f x) + ((1 + d / 2 ^ f) ^ (2 ^ (n + 1) - 1) - 1) * max 1 (Real.exp (val f x)) := by
  have hlo : -(2 ^ n : ℚ) ≤ val f x := (abs_le.1 h1).1
  have hhi : val f x ≤ 2 ^ n := (abs_le.1 h1).2
  have hlo' : (-((2 ^ n : ℕ) : ℝ)) ≤ (val f x : ℝ) := by push_cast; exact_mod_cast hlo
  obtain ⟨hup, hdn⟩ := one_add_pow_exp (2 ^ n) (by positivity) (val f x : ℝ) hlo'
  have hdn := hdn (by push_cast; exact_mod_cast hhi)
  push_cast at hup hdn
  set y : ℚ := 1 + val f x / 2 ^ n with hy
  have hy0 : 0 ≤ y := by
    have : -1 ≤ val f x / 2 ^ n := by rw [le_div_iff₀ (by positivity)]; linarith
    rw [hy]; linarith
  have hδ0 : (0 : ℝ) ≤ d / 2 ^ f := by positivity
  have hyr : ((y ^ 2 ^ n : ℚ) : ℝ) = (1 + (val f x : ℝ) / 2 ^ n) ^ 2 ^ n := by rw [hy]; push_cast; rfl
  have hMp : (max 1 y : ℚ) ^ 2 ^ n = max 1 (y ^ 2 ^ n) := by
    rcases le_total 1 y with h | h
    · rw [max_eq_right h, max_eq_right (one_le_pow₀ h)]
    · rw [max_eq_left h, max_eq_left (pow_le_one₀ hy0 h), one_pow]
  have hMr : (((max 1 y : ℚ) ^ 2 ^ n : ℚ) : ℝ) ≤ max 1 (Real.exp (val f x)) := by
    rw [hMp]; push_cast
    exact max_le_max le_rfl (by rw [← Rat.cast_pow, hyr]; exact hup)
  obtain ⟨r, hr, hc⟩ := c89_taylor_poly hw hn ht htn hR hR4 x hx (max 1 y) (le_max_left _ _) (by rw [← hy, abs_of_nonneg hy0]; exact le_max_right _ _)
    (by
      have : (((1 + d / 2 ^ f : ℚ) ^ 2 ^ (n + 1) * (max 1 y) ^ 2 ^ n * 2 ^ (2 * f) : ℚ) : ℝ) < R := by
        refine lt_of_le_of_lt ?_ hH
        rw [Rat.cast_mul, Rat.cast_mul]
        push_cast at hMr ⊢
        refine mul_le_mul_of_nonneg_right (mul_le_mul_of_nonneg_left hMr (by positivity)) (by positivity)
      exact_mod_cast this)
  refine ⟨r, hr, ?_⟩
  rw [← hy] at hc
  have hcr : |((val f r - y ^ 2 ^ n : ℚ) : ℝ)| ≤ ((1 + d / 2 ^ f) ^ (2 ^ (n + 1) - 1) - 1) * max 1 (Real.exp (val f x)) := by
    have h2 : |((val f r - y ^ 2 ^ n : ℚ) : ℝ)| ≤ ((((1 + d / 2 ^ f) ^ (2 ^ (n + 1) - 1) - 1) * (max 1 y) ^ 2 ^ n : ℚ) : ℝ) := by exact_mod_cast hc
    refine h2.trans ?_
    rw [Rat.cast_mul]
    refine (mul_le_mul_of_nonneg_left hMr ?_).trans (le_of_eq ?_)
    · push_cast
      have : (1 : ℝ) ≤ (1 + d / 2 ^ f) ^ (2 ^ (n + 1) - 1) := one_le_pow₀ (by linarith)
      linarith
    · push_cast; rfl
  rw [Rat.cast_sub, hyr] at hcr
  obtain ⟨ha, hb⟩ := abs_le.1 hcr
  constructor <;> linarith

/-- FINDING: far below zero the formula does not tend to zero: at `x = -2^(n+1)` the result is one up to truncation errors
(with the default of eight iterations, `exp(-512)`). -/
theorem c89_taylor_far (hw : 0 < w) {f d n : ℕ} (hn : n ≠ 0) {R : ℤ} {T : ℕ → BitVec w → BitVec w} (ht : TruncOk f d R (T f))
    (htn : TruncOk n d R (T n)) (hR : R ≤ 2 ^ (w - 1)) (hR4 : 4 * 2 ^ (2 * f) ≤ R) (x : BitVec w) (hx : |x.toInt| < R)
    (h1 : val f x = -2 ^ (n + 1)) (hH : (1 + d / 2 ^ f : ℚ) ^ 2 ^ (n + 1) * 2 ^ (2 * f) < R) :
    ∃ r, expTaylor T f n x = some r ∧ |val f r - 1| ≤ (1 + d / 2 ^ f) ^ (2 ^ (n + 1) - 1) - 1 := by
  have hy : 1 + val f x / 2 ^ n = -1 := by rw [h1, pow_succ]; field_simp; norm_num
  obtain ⟨r, hr, hc⟩ := c89_taylor_poly hw hn ht htn hR hR4 x hx 1 le_rfl (by rw [hy]; norm_num) (by simpa using hH)
  refine ⟨r, hr, ?_⟩
  rw [hy, Even.neg_one_pow (by rw [Nat.even_pow]; exact ⟨even_two, hn⟩)] at hc
  simpa using hc

/-- `exp_taylor` without iterations throws -/
theorem c89_taylor_zero (T : ℕ → BitVec w → BitVec w) (f : ℕ) (x : BitVec w) : expTaylor T f 0 x = none := rfl

end Spu.Props

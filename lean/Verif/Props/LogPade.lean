import Verif.Model.LogPade
import Verif.Props.Log2

set_option autoImplicit false

/-! # C98: natural logarithm of a secret through the binary one -/

namespace Spu.Props
open Spu.Model Spu.Model.HalRing Spu.Model.FxpDiv Spu.Model.PolyApprox Spu.Model.LogPade Spu.Spec.FxpDiv Spu.Spec.Rounding

/-- the bound of `c98_log`: seven tenths of that of the binary logarithm, the rounded constant times at most `f`, one truncation -/
def logPadeBound (f d n : ℕ) : ℚ := 7 / 10 * log2Bound f d n + f * (1 / 2 ^ f + 1 / 100000000) + d / 2 ^ f

/-- C98: the natural logarithm of a secret through the binary one. -/
theorem c98_log (t : ℕ) {f d : ℕ} {R : ℤ} {T : ℕ → BitVec (2 ^ t) → BitVec (2 ^ t)} (ht : TruncOk f d R (T f))
    (hf : 2 * f < 2 ^ t) (hf8 : 8 ≤ f) (hR : R ≤ 2 ^ (2 ^ t - 1)) (hRb : (64 + f) * 2 ^ (2 * f) ≤ R) (hd : (d : ℚ) / 2 ^ f ≤ 1 / 2000)
    (cfg n : ℕ) (hn : numIters cfg f = some n) (hnu : (11 / 10 : ℚ) ^ n * (31 * (d / 2 ^ f)) ≤ 1 / 2) (hB : log2Bound f d n ≤ 1)
    (x : BitVec (2 ^ t)) (h0 : 0 < val f x) (h1 : val f x < 2 ^ f) :
    ∃ r, logPade T f cfg x = some r ∧ |(val f r : ℝ) - Real.log (val f x)| ≤ (logPadeBound f d n : ℚ) := by
  have hw0 : 0 < 2 ^ t := by positivity
  have hpf : (0 : ℚ) < 2 ^ f := by positivity
  have hpz : (0 : ℤ) < 2 ^ f := by positivity
  have hpp : (0 : ℚ) < 2 ^ (2 * f) := by positivity
  have hppz : (0 : ℤ) < 2 ^ (2 * f) := by positivity
  have hfz : (0 : ℤ) ≤ f := by positivity
  have hRbq : (64 + f) * 2 ^ (2 * f) ≤ (R : ℚ) := by exact_mod_cast hRb
  have hRb' : 64 * 2 ^ (2 * f) ≤ R := by
    have := mul_nonneg hfz hppz.le
    linarith
  obtain ⟨r, hr, hre⟩ := c97_log2 t ht hf hf8 hR hRb' hd cfg n hn hnu x h0 h1
  refine ⟨_, by simp only [logPade, hr, Option.bind_eq_bind, Option.bind_some]; rfl, ?_⟩
  set c := encZ (2 ^ t) f 11629080 24 with hc
  obtain ⟨c1, c2⟩ := val_encZ hw0 f 11629080 24 (by
    have hle : (2 : ℤ) ^ f ≤ 2 ^ (2 * f) := pow_le_pow_right₀ (by norm_num) (by omega)
    norm_num
    linarith)
  rw [← hc] at c1 c2
  norm_num at c1 c2
  -- the logarithm lies between `-f` and `f`
  set X : ℝ := ((val f x : ℚ) : ℝ) with hX
  have hX0 : 0 < X := by rw [hX]; exact_mod_cast h0
  have hX1 : X < 2 ^ f := by rw [hX]; exact_mod_cast h1
  have hX2 : 1 / 2 ^ f ≤ X := by
    have hi : 0 < x.toInt := by
      have : 0 < (x.toInt : ℚ) := by rw [← val_mul_pow f x]; positivity
      exact_mod_cast this
    have hi : (1 : ℚ) ≤ x.toInt := by exact_mod_cast hi
    have : (1 : ℚ) / 2 ^ f ≤ val f x := by rw [val]; gcongr
    have := (Rat.cast_le (K := ℝ)).2 this
    push_cast at this
    exact this
  have hpr : (0 : ℝ) < 2 ^ f := by positivity
  have l2p : 0 < Real.log 2 := Real.log_pos (by norm_num)
  set L := Real.logb 2 X with hL
  have hLX : Real.log X = Real.log 2 * L := by rw [hL, Real.logb]; field_simp
  have hLf : |L| ≤ f := by
    have e1 : L ≤ f := by
      rw [hL, Real.logb_le_iff_le_rpow (by norm_num) hX0, Real.rpow_natCast]; exact hX1.le
    have e2 : -(f : ℝ) ≤ L := by
      rw [hL, Real.le_logb_iff_rpow_le (by norm_num) hX0, Real.rpow_neg (by norm_num), Real.rpow_natCast, ← one_div]; exact hX2
    exact abs_le.2 ⟨e2, e1⟩
  have hBr : ((log2Bound f d n : ℚ) : ℝ) ≤ 1 := by exact_mod_cast hB
  have hrb : |val f r| ≤ f + 1 := by
    have h : |((val f r : ℚ) : ℝ)| ≤ f + 1 := by
      have := abs_add_le (((val f r : ℚ) : ℝ) - L) L
      rw [sub_add_cancel] at this
      linarith
    exact_mod_cast h
  have hcb : |val f c| ≤ 7 / 10 := c2.trans (by norm_num)
  have hm := val_fmul hw0 ht hR c r (by
    rw [abs_mul]
    have h := mul_le_mul hcb hrb (abs_nonneg _) (by norm_num)
    have hfq : (0 : ℚ) ≤ f := by positivity
    have h2 : |val f c| * |val f r| < 64 + f := by linarith
    exact lt_of_lt_of_le (mul_lt_mul_of_pos_right h2 hpp) hRbq)
  have hmr := (Rat.cast_le (K := ℝ)).2 hm
  have c1r := (Rat.cast_le (K := ℝ)).2 c1
  have hcbr := (Rat.cast_le (K := ℝ)).2 hcb
  push_cast at hmr c1r hcbr
  rw [hLX, logPadeBound]
  push_cast
  set C : ℝ := ((val f c : ℚ) : ℝ)
  set Y : ℝ := ((val f r : ℚ) : ℝ)
  have hC : |C - Real.log 2| ≤ 1 / 2 ^ f + 1 / 100000000 := by
    have g1 := Real.log_two_gt_d9
    have g2 := Real.log_two_lt_d9
    have hu : ((2 : ℝ) ^ f)⁻¹ = 1 / 2 ^ f := (one_div _).symm
    try rw [hu] at c1r
    have := abs_le.1 c1r
    norm_num at g1 g2
    rw [abs_le]; constructor <;> linarith
  have p1 : |C * (Y - L)| ≤ 7 / 10 * (log2Bound f d n : ℚ) := by
    rw [abs_mul]; exact mul_le_mul hcbr hre (abs_nonneg _) (by norm_num)
  have p2 : |(C - Real.log 2) * L| ≤ f * (1 / 2 ^ f + 1 / 100000000) := by
    rw [abs_mul, mul_comm]; exact mul_le_mul hLf hC (abs_nonneg _) (by positivity)
  have q1 := abs_le.1 p1
  have q2 := abs_le.1 p2
  have q3 := abs_le.1 hmr
  have e : C * Y - Real.log 2 * L = C * (Y - L) + (C - Real.log 2) * L := by ring
  rw [abs_le]; constructor <;> linarith

/-- C98: the logarithm of one plus a secret. -/
theorem c98_log1p (t : ℕ) {f d : ℕ} {R : ℤ} {T : ℕ → BitVec (2 ^ t) → BitVec (2 ^ t)} (ht : TruncOk f d R (T f))
    (hf : 2 * f < 2 ^ t) (hf8 : 8 ≤ f) (hR : R ≤ 2 ^ (2 ^ t - 1)) (hRb : (64 + f) * 2 ^ (2 * f) ≤ R) (hd : (d : ℚ) / 2 ^ f ≤ 1 / 2000)
    (cfg n : ℕ) (hn : numIters cfg f = some n) (hnu : (11 / 10 : ℚ) ^ n * (31 * (d / 2 ^ f)) ≤ 1 / 2) (hB : log2Bound f d n ≤ 1)
    (x : BitVec (2 ^ t)) (h0 : -1 < val f x) (h1 : val f x < 2 ^ f - 1) :
    ∃ r, log1pPade T f cfg x = some r ∧ |(val f r : ℝ) - Real.log (1 + val f x)| ≤ (logPadeBound f d n : ℚ) := by
  have hw0 : 0 < 2 ^ t := by positivity
  have hpf : (0 : ℚ) < 2 ^ f := by positivity
  have hpp : (0 : ℚ) < 2 ^ (2 * f) := by positivity
  have hRq : (R : ℚ) ≤ 2 ^ (2 ^ t - 1) := by exact_mod_cast hR
  have hRbq : (64 + f) * 2 ^ (2 * f) ≤ (R : ℚ) := by exact_mod_cast hRb
  have hfq : (0 : ℚ) ≤ f * 2 ^ (2 * f) := by positivity
  have hff' : (2 : ℚ) ^ f ≤ 2 ^ (2 * f) := pow_le_pow_right₀ (by norm_num) (by omega)
  have hone : val f (encZ (2 ^ t) f 1 0) = 1 := by
    rw [val_encZ_exact hw0 f 1 0 (by omega) (by norm_num; linarith)]; norm_num
  have hs : val f (encZ (2 ^ t) f 1 0 + x) = 1 + val f x := by
    rw [val_add hw0, hone]
    rw [hone]
    have h2 : |1 + val f x| < 2 ^ f := by rw [abs_lt]; constructor <;> linarith
    have h3 := mul_lt_mul_of_pos_right h2 hpf
    rw [← pow_add, ← two_mul] at h3
    linarith
  obtain ⟨r, hr, he⟩ := c98_log t ht hf hf8 hR hRb hd cfg n hn hnu hB (encZ (2 ^ t) f 1 0 + x) (by rw [hs]; linarith) (by rw [hs]; linarith)
  refine ⟨r, hr, ?_⟩
  rw [hs] at he
  push_cast at he
  exact he

/-- with 18 fraction bits in words of 64 bits and two iterations: the logarithm of ten -/
example : ∃ r, logPade (fun b (v : BitVec (2 ^ 6)) => v.sshiftRight b) 18 2 (BitVec.ofInt (2 ^ 6) (10 * 2 ^ 18)) = some r ∧
    |(val 18 r : ℝ) - Real.log 10| ≤ 3 / 10000 := by
  have e : val 18 (BitVec.ofInt (2 ^ 6) (10 * 2 ^ 18)) = 10 := by
    rw [val, show (BitVec.ofInt (2 ^ 6) (10 * 2 ^ 18)).toInt = 10 * 2 ^ 18 by decide +kernel]; norm_num
  obtain ⟨r, h1, h2⟩ := c98_log 6 (f := 18) (d := 1) (R := 2 ^ 62) (T := fun b (v : BitVec (2 ^ 6)) => v.sshiftRight b) (truncOk_sar 18 _)
    (by norm_num) (by norm_num) (by norm_num) (by norm_num) (by norm_num) 2 2 rfl (by norm_num) (by norm_num [log2Bound, errBound])
    (BitVec.ofInt (2 ^ 6) (10 * 2 ^ 18)) (by rw [e]; norm_num) (by rw [e]; norm_num)
  refine ⟨r, h1, ?_⟩
  rw [e] at h2
  have b : logPadeBound 18 1 2 ≤ 3 / 10000 := by norm_num [logPadeBound, log2Bound, errBound]
  have c := (Rat.cast_le (K := ℝ)).2 b
  push_cast at h2 c
  exact h2.trans c

/-- the same for the logarithm of one half, as one plus minus one half -/
example : ∃ r, log1pPade (fun b (v : BitVec (2 ^ 6)) => v.sshiftRight b) 18 2 (BitVec.ofInt (2 ^ 6) (-2 ^ 17)) = some r ∧
    |(val 18 r : ℝ) - Real.log (1 / 2)| ≤ 3 / 10000 := by
  have e : val 18 (BitVec.ofInt (2 ^ 6) (-2 ^ 17)) = -1 / 2 := by
    rw [val, show (BitVec.ofInt (2 ^ 6) (-2 ^ 17)).toInt = -2 ^ 17 by decide +kernel]; norm_num
  obtain ⟨r, h1, h2⟩ := c98_log1p 6 (f := 18) (d := 1) (R := 2 ^ 62) (T := fun b (v : BitVec (2 ^ 6)) => v.sshiftRight b) (truncOk_sar 18 _)
    (by norm_num) (by norm_num) (by norm_num) (by norm_num) (by norm_num) 2 2 rfl (by norm_num) (by norm_num [log2Bound, errBound])
    (BitVec.ofInt (2 ^ 6) (-2 ^ 17)) (by rw [e]; norm_num) (by rw [e]; norm_num)
  refine ⟨r, h1, ?_⟩
  rw [e, show (1 : ℝ) + ((-1 / 2 : ℚ) : ℝ) = 1 / 2 by push_cast; norm_num] at h2
  have b : logPadeBound 18 1 2 ≤ 3 / 10000 := by norm_num [logPadeBound, log2Bound, errBound]
  have c := (Rat.cast_le (K := ℝ)).2 b
  push_cast at c
  exact h2.trans c

end Spu.Props

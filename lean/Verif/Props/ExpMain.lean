import Verif.Props.ExpPow

set_option autoImplicit false

/-! # C89: the exponential functions and sigmoids of secret fixed-point numbers -/

namespace Spu.Props
open Spu.Model Spu.Model.HalRing Spu.Model.FxpDiv Spu.Model.ExpApprox Spu.Spec.Rounding Spu.Spec.FxpDiv

variable {w : ℕ}

/-- multiplying by a power of two without overflow -/
theorem val_mul_pow2 (hw : 0 < w) (f k : ℕ) (x : BitVec w) (h : |val f x * 2 ^ k| * 2 ^ f < 2 ^ (w - 1)) :
    val f (x * BitVec.ofNat w (2 ^ k)) = val f x * 2 ^ k := by
  rw [val_of_eq hw f _ (x.toInt * 2 ^ k)]
  · push_cast; rw [val]; ring
  · rw [BitVec.ofInt_mul, ← ofInt_self, show ((2 : ℤ) ^ k) = ((2 ^ k : ℕ) : ℤ) by norm_cast, BitVec.ofInt_natCast]
  · push_cast
    rw [← val_mul_pow f x, show val f x * 2 ^ f * 2 ^ k = val f x * 2 ^ k * 2 ^ f by ring, abs_mul,
      abs_of_pos (by positivity : (0 : ℚ) < 2 ^ f)]
    exact h

/-- the error of the polynomial, relative to the power of two below -/
noncomputable def expErr (f d : ℕ) : ℝ := 1 / 5000 + (3 / 2 * (d / 2 ^ f) + 6 * (1 / 2 ^ f))

/-- C89: `exp2_pade` between -32 and 32. -/
theorem c89_exp2 {f d : ℕ} (hf8 : 8 ≤ f) (hf : f + 34 ≤ w) {R : ℤ} {T : ℕ → BitVec w → BitVec w} (ht : TruncOk f d R (T f))
    (ht32 : TruncOk 32 d R (T 32)) (hR : R ≤ 2 ^ (w - 1)) (hR4 : 4 * 2 ^ (2 * f) ≤ R) (hR33 : 2 ^ (f + 33) ≤ R)
    (hd : (d : ℚ) / 2 ^ f ≤ 1 / 8) (x : BitVec w) (h1 : -32 ≤ val f x) (h2 : val f x < 32) :
    ∃ r, exp2Pade T f x = some r ∧ |(val f r : ℝ) - (2 : ℝ) ^ (val f x : ℝ)| ≤
      (2 : ℝ) ^ ⌊val f x⌋ * expErr f d + if val f x < 0 then (d : ℝ) / 2 ^ f else 0 := by
  have hw0 : 0 < w := by omega
  have hpf : (0 : ℚ) < 2 ^ f := by positivity
  have hRq : (R : ℚ) ≤ 2 ^ (w - 1) := by exact_mod_cast hR
  have hR33q : (2 : ℚ) ^ (f + 33) ≤ R := by exact_mod_cast hR33
  obtain ⟨hi, hfr⟩ := split_word (f := f) (by omega) x
  set z : ℤ := x.toInt / 2 ^ f with hz
  have hfl : ⌊val f x⌋ = z := by
    rw [val, hz]
    have := Rat.floor_intCast_div_natCast x.toInt (2 ^ f)
    push_cast at this
    exact this
  set fr := HalRing.sub x ((x >>> f) <<< f) with hfrd
  have hsplit : val f x = z + val f fr := by
    rw [val, val, hfr, hz]
    have := Int.ediv_mul_add_emod x.toInt (2 ^ f)
    have e : ((x.toInt : ℤ) : ℚ) = ((x.toInt / 2 ^ f * 2 ^ f + x.toInt % 2 ^ f : ℤ) : ℚ) := by rw [this]
    rw [e]; push_cast; field_simp
  have hfr0 : 0 ≤ val f fr := by
    rw [val, hfr]
    exact div_nonneg (by exact_mod_cast Int.emod_nonneg _ (by positivity)) hpf.le
  have hfr1 : val f fr ≤ 1 := by
    rw [val, hfr, div_le_one hpf]
    exact_mod_cast (Int.emod_lt_of_pos x.toInt (by positivity : (0 : ℤ) < 2 ^ f)).le
  have hz1 : -32 ≤ z := by rw [← hfl, Int.le_floor]; exact_mod_cast h1
  have hz2 : z < 32 := by rw [← hfl, Int.floor_lt]; exact_mod_cast h2
  set k := (x >>> f).toNat % 32 with hk
  have hkz : (k : ℤ) = if z < 0 then z + 32 else z := by
    rw [hk]; push_cast; rw [hi]
    split <;> omega
  have hk32 : k ≤ 31 := by have := Nat.mod_lt (x >>> f).toNat (by norm_num : 0 < 32); omega
  -- the normalised power
  set ret0 := exp2Norm T f fr with hret0
  have hq := exp2Norm_close hw0 ht hR hR4 hd fr hfr0 hfr1
  rw [← hret0] at hq
  have hu8 : (1 : ℚ) / 2 ^ f ≤ 1 / 256 := by
    have : (256 : ℚ) ≤ 2 ^ f := by
      calc (256 : ℚ) = 2 ^ 8 := by norm_num
        _ ≤ 2 ^ f := pow_le_pow_right₀ (by norm_num) hf8
    exact one_div_le_one_div_of_le (by norm_num) this
  have hp0 : 0 ≤ expPoly (val f fr) ∧ expPoly (val f fr) ≤ 201 / 100 := by
    have hp : ∀ n, 0 ≤ (val f fr) ^ n ∧ (val f fr) ^ n ≤ 1 := fun n => ⟨pow_nonneg hfr0 n, pow_le_one₀ hfr0 hfr1⟩
    have := hp 2; have := hp 3; have := hp 4; have := hp 5
    rw [expPoly]
    constructor <;> linarith [(hp 2).1, (hp 2).2, (hp 3).1, (hp 3).2, (hp 4).1, (hp 4).2, (hp 5).1, (hp 5).2]
  have hret3 : |val f ret0| ≤ 3 := by
    have := abs_le.1 hq
    rw [abs_le]; constructor <;> linarith [this.1, this.2]
  -- scaling
  set ret := ret0 * BitVec.ofNat w (2 ^ k) with hret
  have hpk : (2 : ℚ) ^ k ≤ 2 ^ 31 := pow_le_pow_right₀ (by norm_num) hk32
  have hsmall : |val f ret0 * 2 ^ k| * 2 ^ f < 2 ^ (f + 33) := by
    rw [abs_mul, abs_of_pos (by positivity : (0 : ℚ) < 2 ^ k), pow_add, mul_comm ((2 : ℚ) ^ f)]
    refine mul_lt_mul_of_pos_right ?_ hpf
    calc |val f ret0| * 2 ^ k ≤ 3 * 2 ^ 31 := mul_le_mul hret3 hpk (by positivity) (by norm_num)
      _ < 2 ^ 33 := by norm_num
  have hrv : val f ret = val f ret0 * 2 ^ k := val_mul_pow2 hw0 f k ret0 (by linarith)
  have hbits : exp2Pade T f x = some (ret + (x >>> (w - 1)) * HalRing.sub (T 32 ret) ret) := by
    simp only [exp2Pade]
    rw [if_pos (by omega), scale_fold (by omega)]
  have hmsb : x >>> (w - 1) = bit (decide (x.toInt < 0)) := hal_msb hw0 x
  have hx0 : x.toInt < 0 ↔ val f x < 0 := by
    rw [val, div_lt_iff₀ hpf, zero_mul]; norm_cast
  have hx0z : val f x < 0 ↔ z < 0 := by rw [← hfl, Int.floor_lt]; norm_cast
  -- real numbers
  have hpow : (2 : ℝ) ^ (val f x : ℝ) = (2 : ℝ) ^ z * (2 : ℝ) ^ (val f fr : ℝ) := by
    rw [hsplit]; push_cast
    rw [Real.rpow_add (by norm_num), Real.rpow_intCast]
  have hmain : |((val f ret0 : ℚ) : ℝ) - (2 : ℝ) ^ (val f fr : ℝ)| ≤ expErr f d := by
    have a := expPoly_close (val f fr) hfr0 hfr1
    have b : |((val f ret0 : ℚ) : ℝ) - ((expPoly (val f fr) : ℚ) : ℝ)| ≤ 3 / 2 * (d / 2 ^ f) + 6 * (1 / 2 ^ f) := by
      have : |((val f ret0 - expPoly (val f fr) : ℚ) : ℝ)| ≤ ((3 / 2 * (d / 2 ^ f) + 6 * (1 / 2 ^ f) : ℚ) : ℝ) := by exact_mod_cast hq
      push_cast at this
      exact this
    have := abs_add_le (((val f ret0 : ℚ) : ℝ) - ((expPoly (val f fr) : ℚ) : ℝ)) (((expPoly (val f fr) : ℚ) : ℝ) - (2 : ℝ) ^ (val f fr : ℝ))
    rw [sub_add_sub_cancel] at this
    rw [expErr]; linarith
  have hscaled : |((val f ret0 : ℚ) : ℝ) * (2 : ℝ) ^ z - (2 : ℝ) ^ (val f x : ℝ)| ≤ (2 : ℝ) ^ z * expErr f d := by
    rw [hpow, mul_comm, ← mul_sub, abs_mul, abs_of_pos (by positivity : (0 : ℝ) < 2 ^ z)]
    exact mul_le_mul_of_nonneg_left hmain (by positivity)
  rw [hbits, hmsb, hfl]
  refine ⟨_, rfl, ?_⟩
  by_cases hneg : val f x < 0
  · have e : ret + bit (decide (x.toInt < 0)) * HalRing.sub (T 32 ret) ret = T 32 ret := by
      rw [decide_eq_true (hx0.2 hneg), hal_sub]; simp only [bit, if_true]; ring
    rw [e, if_pos hneg]
    have hlt : |ret.toInt| < R := by
      have : ((|ret.toInt| : ℤ) : ℚ) < R := by
        push_cast
        rw [← val_mul_pow f ret, abs_mul, abs_of_pos hpf, hrv]; linarith
      exact_mod_cast this
    have htr := val_trunc (f := f) ht32 ret hlt
    have hkr : val f ret / 2 ^ 32 = val f ret0 * (2 : ℚ) ^ z := by
      have hk' : (k : ℤ) = z + 32 := by rw [hkz, if_pos (hx0z.1 hneg)]
      rw [hrv, ← zpow_natCast (2 : ℚ) k, hk', zpow_add₀ (by norm_num), mul_div_assoc, mul_div_assoc]
      norm_num
    rw [hkr] at htr
    have htr' : |((val f (T 32 ret) : ℚ) : ℝ) - ((val f ret0 : ℚ) : ℝ) * (2 : ℝ) ^ z| ≤ d / 2 ^ f := by
      have : |((val f (T 32 ret) - val f ret0 * (2 : ℚ) ^ z : ℚ) : ℝ)| ≤ ((d / 2 ^ f : ℚ) : ℝ) := by exact_mod_cast htr
      push_cast at this
      exact this
    have := abs_add_le (((val f (T 32 ret) : ℚ) : ℝ) - ((val f ret0 : ℚ) : ℝ) * (2 : ℝ) ^ z)
      (((val f ret0 : ℚ) : ℝ) * (2 : ℝ) ^ z - (2 : ℝ) ^ (val f x : ℝ))
    rw [sub_add_sub_cancel] at this
    linarith
  · have e : ret + bit (decide (x.toInt < 0)) * HalRing.sub (T 32 ret) ret = ret := by
      rw [decide_eq_false (fun h => hneg (hx0.1 h))]; simp [bit]
    rw [e, if_neg hneg, add_zero]
    have hk' : (k : ℤ) = z := by rw [hkz, if_neg (fun h => hneg (hx0z.2 h))]
    have : ((val f ret : ℚ) : ℝ) = ((val f ret0 : ℚ) : ℝ) * (2 : ℝ) ^ z := by
      rw [hrv, ← hk', zpow_natCast]; push_cast; rfl
    rw [this]
    exact hscaled

/-- the encoded limit times the encoded factor stays below 32, also after an error of `d` units -/
def LimitOk (f d : ℕ) : Prop := 11629080 * 2 ^ f / 2 ^ 19 * (12102203 * 2 ^ f / 2 ^ 23) + d * 2 ^ f < 32 * 2 ^ (2 * f)

theorem c89_limit : ∀ f < 41, 8 ≤ f → ∀ d < 3, LimitOk f d := by
  unfold LimitOk; decide +kernel

/-- the encoded factor against `log2 e` -/
theorem log2e_close : |(12102203 / 2 ^ 23 : ℝ) - 1 / Real.log 2| ≤ 1 / 10 ^ 7 := by
  have g := Real.log_two_gt_d9
  have l := Real.log_two_lt_d9
  have h0 : 0 < Real.log 2 := by linarith
  rw [abs_le]
  constructor
  · rw [neg_le_sub_iff_le_add, div_le_iff₀ h0]; nlinarith
  · rw [sub_le_iff_le_add, ← sub_le_iff_le_add', le_div_iff₀ h0]; nlinarith

/-- relative error of the exponential by powers of two -/
noncomputable def padeErr (f d : ℕ) : ℝ := 2 * expErr f d + 2 * ((d + 23) / 2 ^ f + 3 / 10 ^ 6)

/-- C89: the exponential in Padé mode is the exponential of the argument clamped to the range of the approximation. -/
theorem c89_pade {f d : ℕ} (hf8 : 8 ≤ f) (hf : f + 34 ≤ w) {R : ℤ} {T : ℕ → BitVec w → BitVec w} (ht : TruncOk f d R (T f))
    (ht32 : TruncOk 32 d R (T 32)) (hR : R ≤ 2 ^ (w - 1)) (hR4 : 64 * 2 ^ (2 * f) ≤ R) (hR33 : 2 ^ (f + 33) ≤ R)
    (hd : (d : ℚ) / 2 ^ f ≤ 1 / 8) (hlim : LimitOk f d) (iters : ℕ) (x : BitVec w)
    (hx : |x.toInt| + (11629080 * 2 ^ f / 2 ^ 19 : ℕ) < 2 ^ (w - 1)) :
    ∃ r c : ℚ, (∃ v, fExp T f .pade iters x = some v ∧ r = val f v) ∧
      c = max (-(((11629080 * 2 ^ f / 2 ^ 19 : ℕ) : ℚ) / 2 ^ f)) (min (val f x) (((11629080 * 2 ^ f / 2 ^ 19 : ℕ) : ℚ) / 2 ^ f)) ∧
      |(r : ℝ) - Real.exp c| ≤ Real.exp c * padeErr f d + d / 2 ^ f := by
  have hw0 : 0 < w := by omega
  have hpf : (0 : ℚ) < 2 ^ f := by positivity
  have hpfr : (0 : ℝ) < 2 ^ f := by positivity
  set l : ℕ := 11629080 * 2 ^ f / 2 ^ 19 with hl
  set g : ℕ := 12102203 * 2 ^ f / 2 ^ 23 with hg
  have hl23 : l ≤ 23 * 2 ^ f := by
    rw [hl]; apply Nat.div_le_of_le_mul; rw [← mul_assoc]; exact Nat.mul_le_mul_right _ (by norm_num)
  have hg2 : g ≤ 2 * 2 ^ f := by
    rw [hg]; apply Nat.div_le_of_le_mul; rw [← mul_assoc]; exact Nat.mul_le_mul_right _ (by norm_num)
  have hRq : (R : ℚ) ≤ 2 ^ (w - 1) := by exact_mod_cast hR
  have hR4q : 64 * 2 ^ (2 * f) ≤ (R : ℚ) := by exact_mod_cast hR4
  have hR4w : (64 : ℤ) * 2 ^ (2 * f) ≤ 2 ^ (w - 1) := hR4.trans hR
  have hffz : (2 : ℤ) ^ f ≤ 2 ^ (2 * f) := pow_le_pow_right₀ (by norm_num) (by omega)
  have hl23z : (l : ℤ) ≤ 23 * 2 ^ f := by exact_mod_cast hl23
  have hg2z : (g : ℤ) ≤ 2 * 2 ^ f := by exact_mod_cast hg2
  have hpz : (0 : ℤ) < 2 ^ f := by positivity
  have hli : (kLimit w f).toInt = l := toInt_eq_of hw0 _ _ (by rw [kLimit, encF, ← hl, BitVec.ofInt_natCast]) (by omega) (by omega)
  have hgi : (kLog2e w f).toInt = g := toInt_eq_of hw0 _ _ (by rw [kLog2e, encF, ← hg, BitVec.ofInt_natCast]) (by omega) (by omega)
  have hni : (-kLimit w f).toInt = -(l : ℤ) := toInt_eq_of hw0 _ _ (by
    rw [kLimit, encF, ← hl, BitVec.ofInt_neg, BitVec.ofInt_natCast]) (by omega) (by omega)
  have hxa := abs_lt.1 (show |x.toInt| < 2 ^ (w - 1) - l by linarith)
  -- the clamped argument
  set y := clamp x (-kLimit w f) (kLimit w f) with hy
  have hyi : y.toInt = min (max x.toInt (-(l : ℤ))) (l : ℤ) := by
    rw [hy, c37_clamp hw0 x _ _ (by unfold NoOverflow; rw [hni]; omega) (by rw [hni, hli]; omega), hni, hli]
  have hyl : |y.toInt| ≤ l := by rw [hyi, abs_le]; constructor <;> omega
  have hyv : val f y = max (-((l : ℚ) / 2 ^ f)) (min (val f x) (l / 2 ^ f)) := by
    have e : min (max x.toInt (-(l : ℤ))) (l : ℤ) = max (-(l : ℤ)) (min x.toInt (l : ℤ)) := by omega
    rw [val, hyi, e]; push_cast
    rw [val, ← neg_div, ← max_div_div_right hpf.le, ← min_div_div_right hpf.le]
  have hyb : |val f y| ≤ 23 := by
    rw [val, abs_div, abs_of_pos hpf, div_le_iff₀ hpf]
    have : ((|y.toInt| : ℤ) : ℚ) ≤ ((23 * 2 ^ f : ℤ) : ℚ) := by exact_mod_cast hyl.trans hl23z
    push_cast at this
    exact this
  have hgv : val f (kLog2e w f) = g / 2 ^ f := by rw [val, hgi, Int.cast_natCast]
  have hgb : 0 ≤ val f (kLog2e w f) ∧ val f (kLog2e w f) ≤ 2 := by
    rw [hgv]; refine ⟨by positivity, ?_⟩
    rw [div_le_iff₀ hpf]; exact_mod_cast hg2
  have hprod : |val f y * val f (kLog2e w f)| ≤ 46 := by
    rw [abs_mul, abs_of_nonneg hgb.1]
    exact (mul_le_mul hyb hgb.2 hgb.1 (by norm_num)).trans (by norm_num)
  have hm := val_fmul hw0 ht hR y (kLog2e w f) (by
    have : (0 : ℚ) < 2 ^ (2 * f) := by positivity
    nlinarith)
  set v := fmul (T f) y (kLog2e w f) with hv
  -- inside the range of the power of two
  have hin : |val f v| < 32 := by
    have h1 : |val f y * val f (kLog2e w f)| ≤ (l * g : ℕ) / 2 ^ (2 * f) := by
      rw [abs_mul, abs_of_nonneg hgb.1, hgv, val, abs_div, abs_of_pos hpf, div_mul_div_comm, two_mul, pow_add]
      refine div_le_div_of_nonneg_right ?_ (by positivity)
      push_cast
      refine mul_le_mul_of_nonneg_right ?_ (by positivity)
      exact_mod_cast hyl
    have h2 : ((l * g : ℕ) : ℚ) / 2 ^ (2 * f) + d / 2 ^ f < 32 := by
      have e : ((l * g : ℕ) : ℚ) / 2 ^ (2 * f) + d / 2 ^ f = ((l * g + d * 2 ^ f : ℕ) : ℚ) / 2 ^ (2 * f) := by
        push_cast; rw [two_mul, pow_add]; field_simp
      rw [e, div_lt_iff₀ (by positivity)]
      exact_mod_cast hlim
    have := abs_add_le (val f v - val f y * val f (kLog2e w f)) (val f y * val f (kLog2e w f))
    rw [sub_add_cancel] at this
    linarith
  obtain ⟨r, hr, hc⟩ := c89_exp2 hf8 hf ht ht32 hR (by omega) hR33 hd v (abs_lt.1 hin).1.le (abs_lt.1 hin).2
  refine ⟨val f r, val f y, ⟨r, hr, rfl⟩, hyv, ?_⟩
  -- the exponent
  have hL : 0 < Real.log 2 := Real.log_pos (by norm_num)
  have hL1 : Real.log 2 ≤ 1 := by have := Real.log_two_lt_d9; linarith
  have hlc := abs_le.1 log2e_close
  set η : ℝ := (d + 23) / 2 ^ f + 3 / 10 ^ 6 with hη
  have hgr : |((val f (kLog2e w f) : ℚ) : ℝ) - 1 / Real.log 2| ≤ 1 / 2 ^ f + 1 / 10 ^ 7 := by
    obtain ⟨a, b, -⟩ := val_encF hw0 f 12102203 23 (by
      have h1 : 12102203 * 2 ^ f < 2 * 2 ^ f * 2 ^ 23 := by nlinarith [Nat.one_le_two_pow (n := f)]
      have h2 : 2 * 2 ^ f ≤ 2 ^ (w - 1) := by
        have : (2 * 2 ^ f : ℤ) ≤ 2 ^ (w - 1) := by omega
        exact_mod_cast this
      exact h1.trans_le (Nat.mul_le_mul_right _ h2))
    have a' : ((val f (kLog2e w f) : ℚ) : ℝ) ≤ 12102203 / 2 ^ 23 := by
      have : ((val f (kLog2e w f) : ℚ) : ℝ) ≤ ((((12102203 : ℕ) : ℚ) / 2 ^ 23 : ℚ) : ℝ) := by exact_mod_cast a
      push_cast at this; exact this
    have b' : (12102203 / 2 ^ 23 : ℝ) - 1 / 2 ^ f ≤ ((val f (kLog2e w f) : ℚ) : ℝ) := by
      have : (((((12102203 : ℕ) : ℚ) / 2 ^ 23 - 1 / 2 ^ f : ℚ) : ℚ) : ℝ) ≤ ((val f (kLog2e w f) : ℚ) : ℝ) := by exact_mod_cast b
      push_cast at this; exact this
    have : (0 : ℝ) < 1 / 2 ^ f := by positivity
    rw [abs_le]; constructor <;> linarith [hlc.1, hlc.2]
  have hybr : |((val f y : ℚ) : ℝ)| ≤ 23 := by exact_mod_cast hyb
  have hexpo : |((val f v : ℚ) : ℝ) - (val f y : ℝ) / Real.log 2| ≤ η := by
    have h1 : |((val f v : ℚ) : ℝ) - (val f y : ℝ) * ((val f (kLog2e w f) : ℚ) : ℝ)| ≤ d / 2 ^ f := by
      have : |((val f v - val f y * val f (kLog2e w f) : ℚ) : ℝ)| ≤ ((d / 2 ^ f : ℚ) : ℝ) := by exact_mod_cast hm
      push_cast at this; exact this
    have h2 : |(val f y : ℝ) * ((val f (kLog2e w f) : ℚ) : ℝ) - (val f y : ℝ) / Real.log 2| ≤ 23 * (1 / 2 ^ f + 1 / 10 ^ 7) := by
      rw [div_eq_mul_one_div, ← mul_sub, abs_mul]
      exact mul_le_mul hybr hgr (abs_nonneg _) (by norm_num)
    have := abs_add_le (((val f v : ℚ) : ℝ) - (val f y : ℝ) * ((val f (kLog2e w f) : ℚ) : ℝ))
      ((val f y : ℝ) * ((val f (kLog2e w f) : ℚ) : ℝ) - (val f y : ℝ) / Real.log 2)
    rw [sub_add_sub_cancel] at this
    refine (this.trans (add_le_add h1 h2)).trans ?_
    rw [hη, add_div]
    have : (23 : ℝ) * (1 / 2 ^ f + 1 / 10 ^ 7) = 23 / 2 ^ f + 23 / 10 ^ 7 := by ring
    rw [this]; norm_num; linarith
  have hη0 : 0 ≤ η := (abs_nonneg _).trans hexpo
  have hη1 : η ≤ 1 / 4 := by
    have h256 : (256 : ℝ) ≤ 2 ^ f := by
      calc (256 : ℝ) = 2 ^ 8 := by norm_num
        _ ≤ 2 ^ f := pow_le_pow_right₀ (by norm_num) hf8
    have hdr : (d : ℝ) / 2 ^ f ≤ 1 / 8 := by
      have : (((d : ℚ) / 2 ^ f : ℚ) : ℝ) ≤ ((1 / 8 : ℚ) : ℝ) := by exact_mod_cast hd
      push_cast at this; exact this
    have h23 : (23 : ℝ) / 2 ^ f ≤ 23 / 256 := div_le_div_of_nonneg_left (by norm_num) (by norm_num) h256
    rw [hη, add_div]; norm_num at h23 ⊢; linarith
  have hratio : (2 : ℝ) ^ (val f v : ℝ) = Real.exp (val f y) * Real.exp (Real.log 2 * ((val f v : ℝ) - (val f y : ℝ) / Real.log 2)) := by
    rw [Real.rpow_def_of_pos (by norm_num), ← Real.exp_add]
    congr 1; field_simp; ring
  set ε : ℝ := Real.log 2 * ((val f v : ℝ) - (val f y : ℝ) / Real.log 2) with hε
  have hεb : |ε| ≤ η := by
    rw [hε, abs_mul, abs_of_pos hL]
    exact (mul_le_of_le_one_left (abs_nonneg _) hL1).trans hexpo
  have hexp1 := (Real.abs_exp_sub_one_le (hεb.trans (by linarith))).trans (mul_le_mul_of_nonneg_left hεb (by norm_num : (0 : ℝ) ≤ 2))
  have hE := Real.exp_pos ((val f y : ℚ) : ℝ)
  have hpb : |(2 : ℝ) ^ (val f v : ℝ) - Real.exp (val f y)| ≤ Real.exp (val f y) * (2 * η) := by
    rw [hratio, ← mul_sub_one, abs_mul, abs_of_pos hE]
    exact mul_le_mul_of_nonneg_left hexp1 hE.le
  have hp2 : (2 : ℝ) ^ (val f v : ℝ) ≤ Real.exp (val f y) * 2 := by
    have := (abs_le.1 hpb).2
    nlinarith
  have hfloor : (2 : ℝ) ^ ⌊val f v⌋ ≤ (2 : ℝ) ^ (val f v : ℝ) := by
    rw [← Real.rpow_intCast]
    exact Real.rpow_le_rpow_of_exponent_le (by norm_num) (by exact_mod_cast Int.floor_le (val f v))
  have hee : 0 ≤ expErr f d := by rw [expErr]; positivity
  have hlast : (if val f v < 0 then (d : ℝ) / 2 ^ f else 0) ≤ d / 2 ^ f := by
    split
    · exact le_rfl
    · positivity
  have h1 := mul_le_mul_of_nonneg_right (hfloor.trans hp2) hee
  have := abs_add_le (((val f r : ℚ) : ℝ) - (2 : ℝ) ^ (val f v : ℝ)) ((2 : ℝ) ^ (val f v : ℝ) - Real.exp (val f y))
  rw [sub_add_sub_cancel] at this
  rw [padeErr, ← hη]
  nlinarith

end Spu.Props

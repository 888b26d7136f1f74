import Verif.Model.Acos
import Verif.Props.AcosPoly
import Verif.Props.Atan2
import Verif.Props.Sqrt

set_option autoImplicit false

/-! # C93: arc cosine and arc sine of a secret -/

namespace Spu.Props
open Spu.Model Spu.Model.HalRing Spu.Model.FxpDiv Spu.Model.PolyApprox Spu.Model.Acos Spu.Spec.Rounding Spu.Spec.FxpDiv

/-- the reciprocal square root of zero is a truncated zero -/
theorem rsqrt_zero (t : ℕ) (h128 : 2 ^ (t + 1) ≤ 128) {f : ℕ} (hf : 2 * f < 2 ^ (t + 1)) (T : ℕ → BitVec (2 ^ (t + 1)) → BitVec (2 ^ (t + 1))) (lower : Bool) :
    rsqrt T f lower 0 = some (T f 0) := by
  have hw0 : 0 < 2 ^ (t + 1) := by positivity
  have hw2 : 2 ^ (t + 1) = 2 ^ t + 2 ^ t := by rw [pow_succ]; ring
  have hh : 2 ^ (t + 1) / 2 = 2 ^ t := by rw [pow_succ, Nat.mul_div_cancel _ (by norm_num)]
  have hpre : prefixOr (0 : BitVec (2 ^ (t + 1))) = 0 := by
    rw [prefixOr]
    generalize List.range (Nat.log2 (2 ^ (t + 1))) = l
    induction l with
    | nil => rfl
    | cons a l ih =>
      rw [List.foldl_cons]
      rw [show HalRing.or (0 : BitVec (2 ^ (t + 1))) ((0 : BitVec (2 ^ (t + 1))) >>> (2 ^ a)) = 0 by simp [HalRing.or]]
      exact ih
  have hz : highestOneBit (0 : BitVec (2 ^ (t + 1))) <<< 1 = 0 := by rw [highestOneBit, hpre]; simp
  obtain ⟨zs, hzs, hb⟩ := c14_deintl (s := 0) (m := t) h128 hw0 (dvd_refl _) (Nat.zero_le _) (0 : BitVec (2 ^ (t + 1)))
  have hzs' : bitdeintl (0 : BitVec (2 ^ (t + 1))) = some zs := by rw [c37_bitdeintl, hzs]
  have h0 : zs = 0 := by
    apply BitVec.eq_of_getLsbD_eq
    intro i hi
    rw [BitVec.ofNat_eq_ofNat, BitVec.getLsbD_zero]
    by_cases hl : i < 2 ^ t
    · have := hb 0 0 i (by norm_num) hl (by omega)
      simpa using this
    · have := hb 0 1 (i - 2 ^ t) (by norm_num) (by omega) (by omega)
      rw [show 0 * 2 ^ (t + 1) + 1 * 2 ^ t + (i - 2 ^ t) = i by omega] at this
      simpa using this
  rw [h0] at hzs'
  have hrev : ∀ n, n < 2 ^ (t + 1) → Semi2kConv.bitrev (0 : BitVec (2 ^ (t + 1))) 0 n = some 0 := by
    intro n hn
    obtain ⟨r, hr, hbits⟩ := c46_bitrev (Nat.zero_le n) hn (0 : BitVec (2 ^ (t + 1)))
    rw [hr]
    congr 1
    apply BitVec.eq_of_getLsbD_eq
    intro i hi
    rw [hbits i hi]; simp
  have hpar : ∃ b, bitParity (0 : BitVec (2 ^ (t + 1))) (2 ^ t) = some b := ⟨_, c37_parity hw0 _ _⟩
  obtain ⟨b, hb⟩ := hpar
  have hmask : ∀ n, maskNumberOfBits (0 : BitVec (2 ^ (t + 1))) n = 0 := by intro n; simp [maskNumberOfBits]
  have hcomp : rsqrtComp f (0 : BitVec (2 ^ (t + 1))) = some 0 := by
    have e1 : (0 : BitVec (2 ^ (t + 1))) &&& BitVec.ofNat (2 ^ (t + 1)) (2 ^ 2 ^ t - 1) = 0 := by simp
    have e2 : (0 : BitVec (2 ^ (t + 1))) >>> 2 ^ t &&& BitVec.ofNat (2 ^ (t + 1)) (2 ^ 2 ^ t - 1) = 0 := by simp
    have e3 : (0 : BitVec (2 ^ (t + 1))) ^^^ 0 = 0 := by simp
    simp only [rsqrtComp, hzs', hh, Option.bind_eq_bind, Option.bind_some, e1, e2, e3, hb, hrev _ (by omega : f / 2 * 2 < 2 ^ (t + 1)), hmask, mul_zero]
    rfl
  have hg : ∀ z : BitVec (2 ^ (t + 1)), ∃ g, rsqrtGuess T f lower 0 z = some g := by
    intro z
    obtain ⟨zr, hzr, -⟩ := c46_bitrev (Nat.zero_le (2 * f)) hf z
    cases lower
    · simp [rsqrtGuess, hzr, polynomial, rsqrtCoeffs]
    · simp [rsqrtGuess, hzr, polynomial, rsqrtCoeffs]
  obtain ⟨g, hg⟩ := hg 0
  simp only [rsqrt, hz, hg, hcomp, Option.bind_eq_bind, Option.bind_some, Option.pure_def, mul_zero]

theorem pow_le_of_four {n : ℕ} {R : ℤ} (h : 4 * 2 ^ n ≤ R) : 2 ^ n ≤ R := by
  have : (0 : ℤ) < 2 ^ n := by positivity
  linarith

/-- the square root of zero is a few units at most -/
theorem sqrt_zero_close (t : ℕ) (h128 : 2 ^ (t + 1) ≤ 128) {f d : ℕ} (hf8 : 8 ≤ f) {R : ℤ} {T : ℕ → BitVec (2 ^ (t + 1)) → BitVec (2 ^ (t + 1))}
    (ht : TruncOk f d R (T f)) (hR : R ≤ 2 ^ (2 ^ (t + 1) - 1)) (hR3 : 4 * 2 ^ (3 * f) ≤ R) (hd : (d : ℚ) / 2 ^ f ≤ 1 / 256) (lower : Bool) :
    ∃ r, PolyApprox.sqrt T f lower 0 = some r ∧ |val f r| ≤ 3 * (d / 2 ^ f) := by
  have hw : 0 < 2 ^ (t + 1) := by positivity
  have hδ0 : (0 : ℚ) ≤ d / 2 ^ f := by positivity
  have hpf : (0 : ℚ) < 2 ^ f := by positivity
  have hRq : (R : ℚ) ≤ 2 ^ (2 ^ (t + 1) - 1) := by exact_mod_cast hR
  have h3w : 3 * f ≤ 2 ^ (t + 1) - 1 := by
    have : (2 : ℤ) ^ (3 * f) ≤ 2 ^ (2 ^ (t + 1) - 1) := (pow_le_of_four hR3).trans hR
    exact (pow_le_pow_iff_right₀ (by norm_num)).1 this
  have hR3q : 4 * 2 ^ (3 * f) ≤ (R : ℚ) := by exact_mod_cast hR3
  have h3f : (2 : ℚ) ^ (3 * f) = 2 ^ f * 2 ^ (2 * f) := by rw [← pow_add]; congr 1; omega
  have h2f : (2 : ℚ) ^ (2 * f) = 2 ^ f * 2 ^ f := by rw [← pow_add]; congr 1; omega
  have h256 : (256 : ℚ) ≤ 2 ^ f := by
    calc (256 : ℚ) = 2 ^ 8 := by norm_num
      _ ≤ 2 ^ f := pow_le_pow_right₀ (by norm_num) hf8
  have hp2 : (0 : ℚ) < 2 ^ (2 * f) := by positivity
  have h2R : 1024 * 2 ^ (2 * f) ≤ (R : ℚ) := by rw [h3f] at hR3q; nlinarith
  have h16 : 16 * 2 ^ f ≤ (2 : ℚ) ^ (2 ^ (t + 1) - 1) := by rw [h2f] at h2R; nlinarith
  have v0 : val f (0 : BitVec (2 ^ (t + 1))) = 0 := by simp [val]
  have prod : ∀ a b : BitVec (2 ^ (t + 1)), |val f a * val f b| ≤ 4 → |val f (fmul (T f) a b) - val f a * val f b| ≤ d / 2 ^ f :=
    fun a b h => val_fmul hw ht hR a b (by nlinarith)
  set y := T f (0 : BitVec (2 ^ (t + 1))) with hy
  have hyb : |val f y| ≤ d / 2 ^ f := by
    have := prod 0 0 (by rw [v0]; norm_num)
    rw [v0, mul_zero, sub_zero, fmul, mul_zero] at this
    exact this
  have e12 : val f (encZ (2 ^ (t + 1)) f 1 1) = 1 / 2 := by
    rw [val_encZ_exact hw f 1 1 (by omega) (by norm_num; linarith)]; norm_num
  have e32 : val f (encZ (2 ^ (t + 1)) f 3 1) = 3 / 2 := by
    rw [val_encZ_exact hw f 3 1 (by omega) (by norm_num; linarith)]; norm_num
  set h := fmul (T f) y (encZ (2 ^ (t + 1)) f 1 1) with hh
  have hhb : |val f h| ≤ 2 * (d / 2 ^ f) := by
    have := prod y (encZ (2 ^ (t + 1)) f 1 1) (by rw [e12, abs_mul]; norm_num; linarith)
    rw [e12] at this
    have e := abs_add_le (val f h - val f y * (1 / 2)) (val f y * (1 / 2))
    rw [sub_add_cancel, abs_mul (val f y)] at e
    norm_num at e
    norm_num at this
    linarith
  have hm : |val f y * val f h| ≤ 1 / 256 * (1 / 64) := by
    rw [abs_mul]; exact mul_le_mul (by linarith) (by linarith) (abs_nonneg _) (by norm_num)
  have hp := prod y h (by linarith)
  have hpb : |val f (fmul (T f) y h)| ≤ 1 / 100 := by
    have e := abs_add_le (val f (fmul (T f) y h) - val f y * val f h) (val f y * val f h)
    rw [sub_add_cancel] at e
    linarith
  have hpb' := abs_le.1 hpb
  have hrv : val f (sub (encZ (2 ^ (t + 1)) f 3 1) (fmul (T f) y h)) = 3 / 2 - val f (fmul (T f) y h) := by
    rw [val_sub hw f, e32]
    rw [e32]
    have : |3 / 2 - val f (fmul (T f) y h)| ≤ 2 := by rw [abs_le]; constructor <;> linarith
    nlinarith
  set r := sub (encZ (2 ^ (t + 1)) f 3 1) (fmul (T f) y h) with hr
  have hrb : |val f r| ≤ 2 := by rw [hrv, abs_le]; constructor <;> linarith
  have hyr : |val f y * val f r| ≤ d / 2 ^ f * 2 := by rw [abs_mul]; exact mul_le_mul hyb hrb (abs_nonneg _) hδ0
  refine ⟨fmul (T f) y r, ?_, ?_⟩
  · have e0 : fmul (T f) 0 y = y := by rw [fmul, zero_mul]
    simp only [PolyApprox.sqrt, rsqrt_zero t h128 (by omega : 2 * f < 2 ^ (t + 1)) T lower, Option.bind_eq_bind, Option.bind_some, ← hy, e0, ← hh, ← hr]
    rfl
  · have := prod y r (by linarith)
    have e := abs_add_le (val f (fmul (T f) y r) - val f y * val f r) (val f y * val f r)
    rw [sub_add_cancel] at e
    linarith

/-- the errors of the polynomial, of the square root, and of the encoded and truncated polynomial -/
def acosEta (f : ℕ) : ℚ := if f ≤ 20 then 9 / 100000 else 26 / 100000000
def rootErr (lower : Bool) (f d : ℕ) : ℚ := 2 * (rsqRho lower f d + d / 2 ^ f) ^ 2 + 15 / 2 * (d / 2 ^ f)
def acosErr (f d : ℕ) : ℚ := 2 * (d / 2 ^ f) + 15 * (1 / 2 ^ f)

/-- the square root between zero and one -/
theorem root_unit (t : ℕ) (h128 : 2 ^ (t + 1) ≤ 128) {f d : ℕ} (hf8 : 8 ≤ f) {R : ℤ} {T : ℕ → BitVec (2 ^ (t + 1)) → BitVec (2 ^ (t + 1))}
    (ht : TruncOk f d R (T f)) (hR : R ≤ 2 ^ (2 ^ (t + 1) - 1)) (hR3 : 4 * 2 ^ (3 * f) ≤ R) (hd : 256 * d ^ 2 ≤ 2 ^ f)
    (hd' : (d : ℚ) / 2 ^ f ≤ 1 / 256) (lower : Bool)
    (hρ : rsqRho lower f d + d / 2 ^ f ≤ 1 / 4) (z : BitVec (2 ^ (t + 1))) (h0 : 0 ≤ val f z) (h1 : val f z ≤ 1) :
    ∃ r, PolyApprox.sqrt T f lower z = some r ∧ |(val f r : ℝ) - √(val f z)| ≤ rootErr lower f d := by
  have hδ0 : (0 : ℚ) ≤ d / 2 ^ f := by positivity
  have hpf : (0 : ℚ) < 2 ^ f := by positivity
  have hρ0 : 0 ≤ rsqRho lower f d := by rw [rsqRho]; positivity
  rcases h0.eq_or_lt with h0 | h0
  · have hz : z = 0 := by
      have := val_mul_pow f z
      rw [← h0, zero_mul] at this
      have : z.toInt = 0 := by exact_mod_cast this.symm
      exact BitVec.eq_of_toInt_eq (by rw [this]; simp)
    obtain ⟨r, hr, hc⟩ := sqrt_zero_close t h128 hf8 ht hR hR3 hd' lower
    refine ⟨r, by rw [hz]; exact hr, ?_⟩
    rw [← h0]
    have : |val f r| ≤ rootErr lower f d := by
      rw [rootErr]; nlinarith [sq_nonneg (rsqRho lower f d + d / 2 ^ f)]
    have := (Rat.cast_le (K := ℝ)).2 this
    simpa using this
  · set v : ℝ := ((val f z : ℚ) : ℝ) with hv
    have hv0 : 0 < v := by rw [hv]; exact_mod_cast h0
    have hv1 : v ≤ 1 := by rw [hv]; exact_mod_cast h1
    set s := √v with hs
    have hs0 : 0 < s := Real.sqrt_pos.2 hv0
    have hs2 : s ^ 2 = v := Real.sq_sqrt hv0.le
    have hs1 : s ≤ 1 := by nlinarith
    set δ : ℝ := (d : ℝ) / 2 ^ f with hδ
    have hδr0 : 0 ≤ δ := by positivity
    have hδr1 : δ ≤ 1 / 256 := by
      have := (Rat.cast_le (K := ℝ)).2 hd'; push_cast at this; exact this
    have hu : (1 : ℝ) / 2 ^ f ≤ v := by
      have h1 : (1 : ℤ) ≤ z.toInt := by
        have := val_mul_pow f z
        have h : (0 : ℚ) < z.toInt := by rw [← this]; positivity
        have : 0 < z.toInt := by exact_mod_cast h
        omega
      have : (1 : ℚ) / 2 ^ f ≤ val f z := by
        rw [val]; exact div_le_div_of_nonneg_right (by exact_mod_cast h1) hpf.le
      have := (Rat.cast_le (K := ℝ)).2 this; push_cast at this; exact this
    have hδs : δ / s ≤ 1 / 16 := by
      rw [div_le_iff₀ hs0]
      have hdr : (256 : ℝ) * (d : ℝ) ^ 2 ≤ 2 ^ f := by exact_mod_cast hd
      have hpr : (0 : ℝ) < 2 ^ f := by positivity
      have h1 : δ ^ 2 ≤ (1 / 16 * s) ^ 2 := by
        rw [mul_pow, hs2, hδ, div_pow]
        have h2 : (d : ℝ) ^ 2 / (2 ^ f) ^ 2 ≤ 1 / 256 * (1 / 2 ^ f) := by
          rw [div_le_iff₀ (by positivity)]
          have : (1 : ℝ) / 256 * (1 / 2 ^ f) * (2 ^ f) ^ 2 = 1 / 256 * 2 ^ f := by field_simp
          rw [this]; linarith
        nlinarith
      exact (abs_le_of_sq_le_sq' h1 (by positivity)).2
    have hρr : ((rsqRho lower f d : ℚ) : ℝ) + δ ≤ 1 / 4 := by
      have := (Rat.cast_le (K := ℝ)).2 hρ; push_cast at this; exact this
    have hρr0 : (0 : ℝ) ≤ (rsqRho lower f d : ℚ) := by exact_mod_cast hρ0
    have hδs1 : δ * s ≤ δ := by nlinarith
    obtain ⟨r, hr, hc⟩ := c91_sqrt t h128 hf8 ht hR (pow_le_of_four hR3) hd' lower z h0 (by
        refine h1.trans_lt ?_
        rw [rsqRange]; split <;> exact one_lt_pow₀ (by norm_num) (by omega)) (by linarith) (by
        rw [mul_add, mul_one_div]; linarith)
    refine ⟨r, hr, hc.trans ?_⟩
    rw [rootErr]
    push_cast
    rw [← hδ, ← hv, ← hs]
    have a : (((rsqRho lower f d : ℚ) : ℝ) + δ * s) ^ 2 ≤ ((rsqRho lower f d : ℚ) + δ) ^ 2 := pow_le_pow_left₀ (by positivity) (by linarith) 2
    have b : 2 * (((rsqRho lower f d : ℚ) : ℝ) + δ * s) ^ 2 * s ≤ 2 * (((rsqRho lower f d : ℚ) : ℝ) + δ * s) ^ 2 * 1 :=
      mul_le_mul_of_nonneg_left hs1 (by positivity)
    have c : 5 / 2 * δ * (v + 2) ≤ 5 / 2 * δ * 3 := mul_le_mul_of_nonneg_left (by linarith) (by positivity)
    linarith

/-- the polynomial part -/
theorem acos_poly {w : ℕ} (hw : 0 < w) {f d : ℕ} {R : ℤ} {T : ℕ → BitVec w → BitVec w} (ht : TruncOk f d R (T f)) (hR : R ≤ 2 ^ (w - 1))
    (hd : (d : ℚ) / 2 ^ f ≤ 1 / 256) (hR8 : 8 * 2 ^ (2 * f) ≤ R) (hu : (1 : ℚ) / 2 ^ f ≤ 1 / 256) (y : BitVec w) (h0 : 0 ≤ val f y) (h1 : val f y ≤ 1) :
    ∃ r P, polynomial T f y ((if f ≤ 20 then acosSmall else acosLarge).map fun c => encZ w f c.1 c.2) = some r ∧
      |(val f r : ℝ) - P| ≤ acosErr f d ∧ |(val f r : ℝ)| ≤ 21 / 10 ∧ |√(1 - val f y) * P - Real.arccos (val f y)| ≤ acosEta f := by
  have hyM : |val f y| ≤ 17 / 16 := by rw [abs_of_nonneg h0]; linarith
  have h0r : (0 : ℝ) ≤ val f y := by exact_mod_cast h0
  have h1r : (val f y : ℝ) ≤ 1 := by exact_mod_cast h1
  have hp2 : (0 : ℚ) < 2 ^ (2 * f) := by positivity
  have hR8q : 8 * 2 ^ (2 * f) ≤ (R : ℚ) := by exact_mod_cast hR8
  have hδ0 : (0 : ℚ) ≤ d / 2 ^ f := by positivity
  have hu0 : (0 : ℚ) ≤ 1 / 2 ^ f := by positivity
  have heb : ((acosErr f d : ℚ) : ℝ) ≤ 1 / 10 := by
    have : acosErr f d ≤ 1 / 10 := by rw [acosErr]; linarith
    have := (Rat.cast_le (K := ℝ)).2 this; push_cast at this; exact this
  have hpow : ∀ i, |(val f y : ℝ) ^ i| ≤ 1 := fun i => by rw [abs_of_nonneg (by positivity)]; exact pow_le_one₀ h0r h1r
  by_cases hf : f ≤ 20
  · have hs : |coef (3294057, 21)| + coefSum [(-3558689, 24), (9967143, 27), (-628451, 25)] ≤ 3 - 1 / 100 := by
      norm_num [coefSum, coef, Finset.sum_range_succ, abs_of_pos, abs_of_neg]
    have hs2 : coefTrunc [(-3558689, 24), (9967143, 27), (-628451, 25)] ≤ 1 / 2 := by
      norm_num [coefTrunc, coef, Finset.sum_range_succ, abs_of_pos, abs_of_neg]
    obtain ⟨r, hr, hc⟩ := poly_wide hw ht hR hd (3294057, 21) [(-3558689, 24), (9967143, 27), (-628451, 25)]
      (by simp) (by simp) (lt_of_lt_of_le (mul_lt_mul_of_pos_right (by linarith) hp2) hR8q) y hyM
    have ep : ((coef (3294057, 21) + evalPoly [(-3558689, 24), (9967143, 27), (-628451, 25)] (val f y) : ℚ) : ℝ) = acosP (val f y) := by
      rw [acosP]
      norm_num [evalPoly, coef, Finset.sum_range_succ]
      ring
    have hc' : |(val f r : ℝ) - acosP (val f y)| ≤ (acosErr f d : ℝ) := by
      rw [← ep]
      have : |val f r - (coef (3294057, 21) + evalPoly [(-3558689, 24), (9967143, 27), (-628451, 25)] (val f y))| ≤ acosErr f d := by
        refine hc.trans ?_
        rw [acosErr]
        exact add_le_add (mul_le_mul_of_nonneg_right (by linarith) hδ0) (mul_le_mul_of_nonneg_right (by norm_num) hu0)
      exact_mod_cast this
    refine ⟨r, acosP (val f y), by rw [if_pos hf]; exact hr, hc', ?_, ?_⟩
    · have e := abs_add_le ((val f r : ℝ) - acosP (val f y)) (acosP (val f y))
      rw [sub_add_cancel] at e
      have a1 := abs_le.1 (hpow 1); have a2 := abs_le.1 (hpow 2); have a3 := abs_le.1 (hpow 3)
      rw [pow_one] at a1
      have : |acosP (val f y)| ≤ 199 / 100 := by rw [acosP, abs_le]; constructor <;> linarith [a1.1, a1.2, a2.1, a2.2, a3.1, a3.2]
      linarith
    · have ee : (acosEta f : ℝ) = 9 / 100000 := by rw [acosEta, if_pos hf]; norm_num
      rw [ee]; exact acosP_close _ h0r h1r
  · have hs : |coef (6588397, 22)| + coefSum [(-7200741, 25), (5971279, 26), (-6734281, 27), (2073119, 26), (-4587059, 28), (14323909, 31),
        (-2711179, 31)] ≤ 3 - 1 / 100 := by
      norm_num [coefSum, coef, Finset.sum_range_succ, abs_of_pos, abs_of_neg]
    have hs2 : coefTrunc [(-7200741, 25), (5971279, 26), (-6734281, 27), (2073119, 26), (-4587059, 28), (14323909, 31), (-2711179, 31)] ≤ 1 / 2 := by
      norm_num [coefTrunc, coef, Finset.sum_range_succ, abs_of_pos, abs_of_neg]
    obtain ⟨r, hr, hc⟩ := poly_wide hw ht hR hd (6588397, 22) [(-7200741, 25), (5971279, 26), (-6734281, 27), (2073119, 26), (-4587059, 28), (14323909, 31),
        (-2711179, 31)] (by simp) (by simp) (lt_of_lt_of_le (mul_lt_mul_of_pos_right (by linarith) hp2) hR8q) y hyM
    have ep : ((coef (6588397, 22) + evalPoly [(-7200741, 25), (5971279, 26), (-6734281, 27), (2073119, 26), (-4587059, 28), (14323909, 31),
        (-2711179, 31)] (val f y) : ℚ) : ℝ) = acosPL (val f y) := by
      rw [acosPL]
      norm_num [evalPoly, coef, Finset.sum_range_succ]
      ring
    have hc' : |(val f r : ℝ) - acosPL (val f y)| ≤ (acosErr f d : ℝ) := by
      rw [← ep]
      have : |val f r - (coef (6588397, 22) + evalPoly [(-7200741, 25), (5971279, 26), (-6734281, 27), (2073119, 26), (-4587059, 28), (14323909, 31),
        (-2711179, 31)] (val f y))| ≤ acosErr f d := by
        refine hc.trans ?_
        rw [acosErr]
        exact add_le_add (mul_le_mul_of_nonneg_right (by linarith) hδ0) (mul_le_mul_of_nonneg_right (by norm_num) hu0)
      exact_mod_cast this
    refine ⟨r, acosPL (val f y), by rw [if_neg hf]; exact hr, hc', ?_, ?_⟩
    · have e := abs_add_le ((val f r : ℝ) - acosPL (val f y)) (acosPL (val f y))
      rw [sub_add_cancel] at e
      have a1 := abs_le.1 (hpow 1); have a2 := abs_le.1 (hpow 2); have a3 := abs_le.1 (hpow 3); have a4 := abs_le.1 (hpow 4)
      have a5 := abs_le.1 (hpow 5); have a6 := abs_le.1 (hpow 6); have a7 := abs_le.1 (hpow 7)
      rw [pow_one] at a1
      have : |acosPL (val f y)| ≤ 199 / 100 := by
        rw [acosPL, abs_le]
        constructor <;> linarith [a1.1, a1.2, a2.1, a2.2, a3.1, a3.2, a4.1, a4.2, a5.1, a5.2, a6.1, a6.2, a7.1, a7.2]
      linarith
    · have ee : (acosEta f : ℝ) = 26 / 100000000 := by rw [acosEta, if_neg hf]; norm_num
      rw [ee]; exact acosPL_close _ h0r h1r

/-- the bound for the arc cosine -/
def acosBound (lower : Bool) (f d : ℕ) : ℚ :=
  acosEta f + 21 / 10 * rootErr lower f d + acosErr f d + d / 2 ^ f + (1 / 2 ^ f + 1 / 1000000000000000)

set_option maxHeartbeats 1600000 in
/-- C93: the arc cosine of every secret between `-1` and `1`, for every truncation with a bounded error. -/
theorem c93_acos (t : ℕ) (h128 : 2 ^ (t + 1) ≤ 128) {f d : ℕ} (hf8 : 8 ≤ f) {R : ℤ} {T : ℕ → BitVec (2 ^ (t + 1)) → BitVec (2 ^ (t + 1))}
    (ht : TruncOk f d R (T f)) (hR : R ≤ 2 ^ (2 ^ (t + 1) - 1)) (hR3 : 4 * 2 ^ (3 * f) ≤ R) (hd : 256 * d ^ 2 ≤ 2 ^ f) (lower : Bool)
    (hρ : rsqRho lower f d + d / 2 ^ f ≤ 1 / 4) (x : BitVec (2 ^ (t + 1))) (hx : |val f x| ≤ 1) :
    ∃ r, acos T f lower x = some r ∧ |(val f r : ℝ) - Real.arccos (val f x)| ≤ acosBound lower f d := by
  have hw : 0 < 2 ^ (t + 1) := by positivity
  have hδ0 : (0 : ℚ) ≤ d / 2 ^ f := by positivity
  have hpf : (0 : ℚ) < 2 ^ f := by positivity
  have hRq : (R : ℚ) ≤ 2 ^ (2 ^ (t + 1) - 1) := by exact_mod_cast hR
  have hR3q : 4 * 2 ^ (3 * f) ≤ (R : ℚ) := by exact_mod_cast hR3
  have h3f : (2 : ℚ) ^ (3 * f) = 2 ^ f * 2 ^ (2 * f) := by rw [← pow_add]; congr 1; omega
  have h2f : (2 : ℚ) ^ (2 * f) = 2 ^ f * 2 ^ f := by rw [← pow_add]; congr 1; omega
  have h256 : (256 : ℚ) ≤ 2 ^ f := by
    calc (256 : ℚ) = 2 ^ 8 := by norm_num
      _ ≤ 2 ^ f := pow_le_pow_right₀ (by norm_num) hf8
  have hp2 : (0 : ℚ) < 2 ^ (2 * f) := by positivity
  have h2R : 1024 * 2 ^ (2 * f) ≤ (R : ℚ) := by rw [h3f] at hR3q; nlinarith
  have h16 : 16 * 2 ^ f ≤ (2 : ℚ) ^ (2 ^ (t + 1) - 1) := by rw [h2f] at h2R; nlinarith
  have hu1 : (1 : ℚ) / 2 ^ f ≤ 1 / 256 := one_div_le_one_div_of_le (by norm_num) h256
  have hdd : (256 : ℚ) * d ^ 2 ≤ 2 ^ f := by exact_mod_cast hd
  have hd' : (d : ℚ) / 2 ^ f ≤ 1 / 256 := by
    rw [div_le_iff₀ hpf]
    rcases Nat.eq_zero_or_pos d with h | h
    · rw [h]; norm_num
    · have : (1 : ℚ) ≤ d := by exact_mod_cast h
      nlinarith
  have hR4 : 4 * 2 ^ (2 * f) ≤ R := by
    have : (4 * 2 ^ (2 * f) : ℚ) ≤ R := by linarith
    exact_mod_cast this
  have hR8 : 8 * 2 ^ (2 * f) ≤ R := by
    have : (8 * 2 ^ (2 * f) : ℚ) ≤ R := by linarith
    exact_mod_cast this
  obtain ⟨-, hav⟩ := babs hw f x (by
    have : |(x.toInt : ℚ)| < 2 ^ (2 ^ (t + 1) - 1) := by
      rw [← val_mul_pow f x, abs_mul, abs_of_pos hpf]; nlinarith
    exact_mod_cast this)
  set ax := mux (HalRing.msb x) (-x) x with hax
  have hX0 := abs_nonneg (val f x)
  have hone : val f (kOne (2 ^ (t + 1)) f) = 1 := val_kOne hw hR hR4
  have hzv : val f (sub (kOne (2 ^ (t + 1)) f) ax) = 1 - |val f x| := by
    rw [val_sub hw f, hone, hav]
    rw [hone, hav, abs_of_nonneg (by linarith)]; nlinarith
  set z := sub (kOne (2 ^ (t + 1)) f) ax with hz
  obtain ⟨p, P, hp, hpP, hpb, hPa⟩ := acos_poly hw ht hR hd' hR8 hu1 ax (by rw [hav]; exact hX0) (by rw [hav]; exact hx)
  obtain ⟨s, hs, hsc⟩ := root_unit t h128 hf8 ht hR hR3 hd hd' lower hρ z (by rw [hzv]; linarith) (by rw [hzv]; linarith)
  rw [hzv] at hsc
  rw [hav] at hPa
  push_cast at hsc hPa
  set v : ℝ := |(val f x : ℝ)| with hv
  have hv0 : 0 ≤ v := abs_nonneg _
  have hv1 : v ≤ 1 := by
    have := (Rat.cast_le (K := ℝ)).2 hx; push_cast at this; exact this
  set S := √(1 - v) with hS
  have hS0 : 0 ≤ S := Real.sqrt_nonneg _
  have hS2 : S ^ 2 = 1 - v := Real.sq_sqrt (by linarith)
  have hS1 : S ≤ 1 := by nlinarith
  have hre : rootErr lower f d ≤ 1 / 5 := by
    have h0 : 0 ≤ rsqRho lower f d + d / 2 ^ f := by rw [rsqRho]; positivity
    rw [rootErr]; nlinarith
  have hre' : ((rootErr lower f d : ℚ) : ℝ) ≤ 1 / 5 := by
    have := (Rat.cast_le (K := ℝ)).2 hre; push_cast at this; exact this
  have hsb : |(val f s : ℝ)| ≤ 6 / 5 := by
    have e := abs_add_le ((val f s : ℝ) - S) S
    rw [sub_add_cancel, abs_of_nonneg hS0] at e
    linarith
  have hsp : |(val f s : ℝ) * val f p| ≤ 3 := by
    rw [abs_mul]
    exact (mul_le_mul hsb hpb (abs_nonneg _) (by norm_num)).trans (by norm_num)
  have hspq : |val f s * val f p| ≤ 3 := by exact_mod_cast hsp
  have hq := val_fmul hw ht hR s p (by nlinarith)
  set q := fmul (T f) s p with hqd
  have hqr : |(val f q : ℝ) - val f s * val f p| ≤ d / 2 ^ f := by
    have := (Rat.cast_le (K := ℝ)).2 hq; push_cast at this; exact this
  set ε : ℝ := acosEta f + 21 / 10 * rootErr lower f d + acosErr f d + d / 2 ^ f with hε
  have hqc : |(val f q : ℝ) - Real.arccos v| ≤ ε := by
    have e : (val f q : ℝ) - Real.arccos v = ((val f q : ℝ) - val f s * val f p) + ((val f s : ℝ) - S) * val f p + S * ((val f p : ℝ) - P) + (S * P - Real.arccos v) := by ring
    have h1 : |((val f s : ℝ) - S) * val f p| ≤ rootErr lower f d * (21 / 10) := by
      rw [abs_mul]; exact mul_le_mul hsc hpb (abs_nonneg _) ((abs_nonneg _).trans hsc)
    have h2 : |S * ((val f p : ℝ) - P)| ≤ acosErr f d := by
      rw [abs_mul, abs_of_nonneg hS0]
      have := abs_nonneg ((val f p : ℝ) - P)
      nlinarith
    rw [e]
    refine (abs_add_le _ _).trans ?_
    have h3 := abs_add_three ((val f q : ℝ) - val f s * val f p) (((val f s : ℝ) - S) * val f p) (S * ((val f p : ℝ) - P))
    rw [hε]; linarith
  have hε1 : ε ≤ 2 := by
    have : acosEta f + 21 / 10 * rootErr lower f d + acosErr f d + d / 2 ^ f ≤ 2 := by
      have : acosEta f ≤ 1 / 1000 := by rw [acosEta]; split <;> norm_num
      rw [acosErr]; linarith
    have := (Rat.cast_le (K := ℝ)).2 this; push_cast at this; exact this
  obtain ⟨a2, b2⟩ := val_encPi hw f 48 Real.pi (Or.inl ⟨rfl, rfl⟩) h16
  have hac0 := Real.arccos_nonneg v
  have hac1 := Real.arccos_le_pi v
  have hpi4 := Real.pi_le_four
  have c2 := reflect hw f h16 (x.toInt < 0) _ q _ (Real.arccos v) ε _ a2 b2 (by rw [abs_of_nonneg hac0]; linarith) (by positivity) hε1 hqc
  rw [← hal_msb hw] at c2
  refine ⟨mux (HalRing.msb x) (sub (encZ (2 ^ (t + 1)) f 884279719003555 48) q) q, ?_, ?_⟩
  · simp only [acos, ← hax, hp, ← hz, hs, Option.bind_eq_bind, Option.bind_some, ← hqd]
    rfl
  · have hneg : ((val f x : ℝ) < 0) ↔ x.toInt < 0 := by
      have := val_neg_iff f x
      rw [← not_le, ← not_le, ← this]
      norm_cast
    have harg : Real.arccos (val f x) = if x.toInt < 0 then Real.pi - Real.arccos v else Real.arccos v := by
      split
      · rename_i h
        rw [hv, abs_of_neg (hneg.2 h), Real.arccos_neg, sub_sub_cancel]
      · rename_i h
        rw [hv, abs_of_nonneg (not_lt.1 fun g => h (hneg.1 g))]
    rw [harg, acosBound]
    push_cast
    rw [hε] at c2
    linarith

/-- C93: the arc sine. -/
theorem c93_asin (t : ℕ) (h128 : 2 ^ (t + 1) ≤ 128) {f d : ℕ} (hf8 : 8 ≤ f) {R : ℤ} {T : ℕ → BitVec (2 ^ (t + 1)) → BitVec (2 ^ (t + 1))}
    (ht : TruncOk f d R (T f)) (hR : R ≤ 2 ^ (2 ^ (t + 1) - 1)) (hR3 : 4 * 2 ^ (3 * f) ≤ R) (hd : 256 * d ^ 2 ≤ 2 ^ f) (lower : Bool)
    (hρ : rsqRho lower f d + d / 2 ^ f ≤ 1 / 4) (hb : acosBound lower f d ≤ 2) (x : BitVec (2 ^ (t + 1))) (hx : |val f x| ≤ 1) :
    ∃ r, asin T f lower x = some r ∧ |(val f r : ℝ) - Real.arcsin (val f x)| ≤ acosBound lower f d + (1 / 2 ^ f + 1 / 1000000000000000) := by
  have hw : 0 < 2 ^ (t + 1) := by positivity
  obtain ⟨a, ha, hc⟩ := c93_acos t h128 hf8 ht hR hR3 hd lower hρ x hx
  have h16 : 16 * 2 ^ f ≤ (2 : ℚ) ^ (2 ^ (t + 1) - 1) := by
    have : 16 * 2 ^ f ≤ (4 * 2 ^ (3 * f) : ℤ) := by
      rw [show 3 * f = f + 2 * f by ring, pow_add]
      have : (4 : ℤ) ≤ 2 ^ (2 * f) := by
        calc (4 : ℤ) = 2 ^ 2 := by norm_num
          _ ≤ 2 ^ (2 * f) := pow_le_pow_right₀ (by norm_num) (by omega)
      have : (0 : ℤ) < 2 ^ f := by positivity
      nlinarith
    exact_mod_cast this.trans (hR3.trans hR)
  obtain ⟨a2, b2⟩ := val_encPi hw f 49 (Real.pi / 2) (Or.inr ⟨rfl, rfl⟩) h16
  have hac0 := Real.arccos_nonneg (val f x)
  have hac1 := Real.arccos_le_pi (val f x)
  have hpi4 := Real.pi_le_four
  have hb' : ((acosBound lower f d : ℚ) : ℝ) ≤ 2 := by exact_mod_cast hb
  have c2 := reflect hw f h16 True _ a _ (Real.arccos (val f x)) _ _ a2 b2 (by rw [abs_of_nonneg hac0]; linarith) (by positivity) hb' hc
  rw [c37_mux] at c2
  simp only [decide_true, if_true] at c2
  refine ⟨_, by simp only [asin, ha, Option.bind_eq_bind, Option.bind_some]; rfl, ?_⟩
  rw [Real.arcsin_eq_pi_div_two_sub_arccos]
  exact c2

/-- with 18 fraction bits in words of 64 bits: the arc cosine of `-1/2` and the arc sine of one -/
example : (∃ r, acos (fun b (v : BitVec (2 ^ (5 + 1))) => v.sshiftRight b) 18 false (BitVec.ofInt 64 (-2 ^ 17)) = some r ∧
      |(val 18 r : ℝ) - Real.arccos ((val 18 (BitVec.ofInt 64 (-2 ^ 17)) : ℚ) : ℝ)| ≤ 4 / 10000) ∧
    acosBound false 18 1 ≤ 4 / 10000 := by
  have hx : (BitVec.ofInt 64 (-2 ^ 17)).toInt = -2 ^ 17 := by decide +kernel
  have vx : val 18 (BitVec.ofInt 64 (-2 ^ 17)) = -(1 / 2) := by rw [val, hx]; norm_num
  have hb : acosBound false 18 1 ≤ 4 / 10000 := by norm_num [acosBound, acosEta, rootErr, acosErr, rsqRho]
  refine ⟨?_, hb⟩
  obtain ⟨r, h1, h2⟩ := c93_acos 5 (by norm_num) (f := 18) (d := 1) (R := 2 ^ 62) (T := fun b (v : BitVec (2 ^ (5 + 1))) => v.sshiftRight b)
    (by norm_num) (truncOk_sar 18 _) (by norm_num) (by norm_num) (by norm_num) false (by norm_num [rsqRho]) (BitVec.ofInt 64 (-2 ^ 17))
    (by rw [vx]; norm_num [abs_of_pos])
  refine ⟨r, h1, h2.trans ?_⟩
  have := (Rat.cast_le (K := ℝ)).2 hb
  push_cast at this; exact this

end Spu.Props

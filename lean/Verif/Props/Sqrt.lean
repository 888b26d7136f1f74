import Verif.Props.Rsqrt
import Verif.Props.ExpSigmoid
import Verif.Props.CheetahTrunc

set_option autoImplicit false

/-! # C91: the square root, and the reciprocal square root outside its range -/

namespace Spu.Props
open Spu.Model Spu.Model.HalRing Spu.Model.FxpDiv Spu.Model.ExpApprox Spu.Model.PolyApprox Spu.Spec.Rounding Spu.Spec.FxpDiv

/-- C91: from the end of the range on, the reciprocal square root is a truncated zero. -/
theorem c91_rsqrt_beyond (t : ℕ) (h128 : 2 ^ (t + 1) ≤ 128) {f : ℕ} (hf3 : 3 ≤ f) (hf : 2 * f < 2 ^ (t + 1))
    (T : ℕ → BitVec (2 ^ (t + 1)) → BitVec (2 ^ (t + 1))) (lower : Bool) (x : BitVec (2 ^ (t + 1))) (h1 : rsqRange f ≤ val f x) :
    rsqrt T f lower x = some (T f 0) := by
  have hpf : (0 : ℚ) < 2 ^ f := by positivity
  have hrp : 0 < rsqRange f := by rw [rsqRange]; split <;> positivity
  have hi := x.isLt
  obtain ⟨m, hmF, hm1, hm2, hn⟩ := split_bits f x (by linarith) (2 ^ (t + 1) - 1) (by
    rw [val_mul_pow]
    have := BitVec.toInt_lt (x := x)
    exact_mod_cast this)
  have hm : 2 * (f / 2 * 2) - 1 ≤ m := by
    have h2 : (2 : ℚ) ^ (2 * (f / 2 * 2) - 1) ≤ x.toNat := by
      have e : rsqRange f * 2 ^ f ≤ val f x * 2 ^ f := mul_le_mul_of_nonneg_right h1 hpf.le
      rw [val_mul_pow, hn] at e
      refine le_trans ?_ (by exact_mod_cast e : rsqRange f * 2 ^ f ≤ (x.toNat : ℚ))
      rw [rsqRange]
      split
      · rw [← pow_add]; exact pow_le_pow_right₀ (by norm_num) (by omega)
      · rw [← pow_add]; exact pow_le_pow_right₀ (by norm_num) (by omega)
    have h2 : 2 ^ (2 * (f / 2 * 2) - 1) ≤ x.toNat := by exact_mod_cast h2
    have := (Nat.pow_lt_pow_iff_right (by norm_num : 1 < 2)).1 (h2.trans_lt hm2)
    omega
  have hcomp := comp_word t h128 f (m + 1) (by omega) (by omega) _ (np2_bit (t + 1) m x hm1 hm2 (by omega))
  rw [if_neg (by omega), mul_zero] at hcomp
  obtain ⟨zr, hzr, -⟩ := c46_bitrev (Nat.zero_le (2 * f)) hf (highestOneBit x <<< 1)
  obtain ⟨g, hg⟩ : ∃ g, rsqrtGuess T f lower x (highestOneBit x <<< 1) = some g := by
    cases lower
    · simp [rsqrtGuess, hzr, polynomial, rsqrtCoeffs]
    · simp [rsqrtGuess, hzr, polynomial, rsqrtCoeffs]
  simp only [rsqrt, hg, hcomp, Option.bind_eq_bind, Option.bind_some, Option.pure_def]
  rw [show BitVec.ofNat (2 ^ (t + 1)) 0 = 0 from rfl, mul_zero]

/-- With 17 fraction bits the reciprocal square root of `2^14` is 0 instead of `2^-7`. -/
theorem c91_rsqrt_odd : rsqrt (fun b (v : BitVec (2 ^ (5 + 1))) => v.sshiftRight b) 17 false (BitVec.ofInt 64 (2 ^ 31)) = some 0 :=
  (c91_rsqrt_beyond 5 (by norm_num) (f := 17) (by norm_num) (by norm_num) (fun b (v : BitVec (2 ^ (5 + 1))) => v.sshiftRight b) false
    (BitVec.ofInt 64 (2 ^ 31)) (by
      rw [val, show (BitVec.ofInt 64 (2 ^ 31)).toInt = 2 ^ 31 by decide, rsqRange]; norm_num)).trans (by decide +kernel)

/-- with 18 it is right -/
example : ∃ r, rsqrt (fun b (v : BitVec (2 ^ (5 + 1))) => v.sshiftRight b) 18 false (BitVec.ofInt 64 (2 ^ 32)) = some r ∧
    |(val 18 r : ℝ) - 1 / 128| ≤ 1 / 20000 := by
  have e : val 18 (BitVec.ofInt 64 (2 ^ 32)) = 2 ^ 14 := by
    rw [val, show (BitVec.ofInt 64 (2 ^ 32)).toInt = 2 ^ 32 by decide]; norm_num
  obtain ⟨r, h1, h2⟩ := c91_rsqrt 5 (by norm_num) (f := 18) (d := 1) (R := 2 ^ 62) (T := fun b (v : BitVec (2 ^ (5 + 1))) => v.sshiftRight b)
    (by norm_num) (truncOk_sar 18 _) (by norm_num) (by norm_num) (by norm_num) false (BitVec.ofInt 64 (2 ^ 32)) (by rw [e]; norm_num)
    (by rw [e, rsqRange]; norm_num)
  refine ⟨r, h1, ?_⟩
  have s : √((val 18 (BitVec.ofInt 64 (2 ^ 32)) : ℚ) : ℝ) = 128 := by
    rw [e, show (((2 ^ 14 : ℚ)) : ℝ) = 128 ^ 2 by push_cast; norm_num, Real.sqrt_sq (by norm_num)]
  rw [s] at h2
  refine h2.trans ?_
  rw [rsqRho]; norm_num

/-- one step of the iteration -/
theorem goldschmidt {S X y ρ δ κ g h p r o : ℝ} (hS : 0 < S) (hX : X = S ^ 2) (hρ : ρ ≤ 1 / 4) (hδ0 : 0 ≤ δ) (hδ : δ ≤ 1 / 256)
    (hκ : κ = δ * (S + 1 / S)) (hκ1 : κ ≤ 1 / 8) (hy : |y * S - 1| ≤ ρ) (hg : |g - X * y| ≤ δ) (hh : |h - y * (1 / 2)| ≤ δ)
    (hp : |p - g * h| ≤ δ) (hr : r = 3 / 2 - p) (ho : |o - g * r| ≤ δ) :
    |p - 1 / 2| ≤ 1 / 2 + 2 * κ ∧ |o - S| ≤ (2 * ρ ^ 2 + 5 / 2 * κ) * S + 5 / 2 * δ := by
  obtain ⟨ε, hε⟩ : ∃ ε, ε = y * S - 1 := ⟨_, rfl⟩
  rw [← hε] at hy
  have hyS : y = (1 + ε) / S := by rw [hε]; field_simp; ring
  obtain ⟨e1, e2⟩ := abs_le.1 hy
  have hρ0 : 0 ≤ ρ := (abs_nonneg _).trans hy
  obtain ⟨a, ha⟩ : ∃ a, a = g - X * y := ⟨_, rfl⟩
  obtain ⟨b, hb⟩ : ∃ b, b = h - y * (1 / 2) := ⟨_, rfl⟩
  obtain ⟨c, hc⟩ : ∃ c, c = p - g * h := ⟨_, rfl⟩
  rw [← ha] at hg; rw [← hb] at hh; rw [← hc] at hp
  have hg' : g = S * (1 + ε) + a := by rw [ha, hX, hyS]; field_simp; ring
  have hh' : h = (1 + ε) / (2 * S) + b := by rw [hb, hyS]; field_simp; ring
  have hSS : 2 ≤ S + 1 / S := by
    have : 0 ≤ (S - 1) ^ 2 / S := by positivity
    have e : (S - 1) ^ 2 / S = S + 1 / S - 2 := by field_simp; ring
    linarith
  have hδκ : 2 * δ ≤ κ := by rw [hκ, mul_comm]; exact mul_le_mul_of_nonneg_left hSS hδ0
  have hκ0 : 0 ≤ κ := by linarith
  obtain ⟨τ, hτ⟩ : ∃ τ, τ = p - (1 + ε) ^ 2 / 2 := ⟨_, rfl⟩
  have hτe : τ = (1 + ε) * (a * (1 / (2 * S)) + b * S) + a * b + c := by
    rw [hτ, show p = g * h + c by rw [hc]; ring, hg', hh']; field_simp; ring
  have hτb : |τ| ≤ 2 * κ := by
    have h1 : |a * (1 / (2 * S)) + b * S| ≤ κ := by
      refine (abs_add_le _ _).trans ?_
      rw [abs_mul, abs_mul, abs_of_pos hS, abs_of_pos (by positivity : 0 < 1 / (2 * S))]
      have i1 : |a| * (1 / (2 * S)) ≤ δ * (1 / (2 * S)) := mul_le_mul_of_nonneg_right hg (by positivity)
      have i2 : |b| * S ≤ δ * S := mul_le_mul_of_nonneg_right hh hS.le
      have i3 : δ * (1 / (2 * S)) ≤ δ * (1 / S) := by
        refine mul_le_mul_of_nonneg_left ?_ hδ0
        exact one_div_le_one_div_of_le hS (by linarith)
      rw [hκ, mul_add]; linarith
    have h2 : |(1 + ε) * (a * (1 / (2 * S)) + b * S)| ≤ 5 / 4 * κ := by
      rw [abs_mul]
      exact mul_le_mul (by rw [abs_le]; constructor <;> linarith) h1 (abs_nonneg _) (by norm_num)
    have h3 : |a * b| ≤ 1 / 256 * δ := by
      rw [abs_mul]; exact mul_le_mul (hg.trans hδ) hh (abs_nonneg _) (by norm_num)
    have h4 := abs_add_le ((1 + ε) * (a * (1 / (2 * S)) + b * S) + a * b) c
    have h5 := abs_add_le ((1 + ε) * (a * (1 / (2 * S)) + b * S)) (a * b)
    rw [hτe]; linarith
  have hε2 : ε ^ 2 ≤ ρ ^ 2 := by
    rw [← sq_abs ε]; exact pow_le_pow_left₀ (abs_nonneg _) hy 2
  have hε2' : ε ^ 2 ≤ 1 / 16 := hε2.trans (by
    calc ρ ^ 2 ≤ (1 / 4) ^ 2 := pow_le_pow_left₀ hρ0 hρ 2
      _ = 1 / 16 := by norm_num)
  have hε0 := sq_nonneg ε
  obtain ⟨t1, t2⟩ := abs_le.1 hτb
  refine ⟨?_, ?_⟩
  · have : p = (1 + ε) ^ 2 / 2 + τ := by rw [hτ]; ring
    rw [this, show (1 + ε) ^ 2 / 2 + τ - 1 / 2 = ε + ε ^ 2 / 2 + τ by ring, abs_le]
    constructor <;> linarith
  have hr' : r = 1 - ε - ε ^ 2 / 2 - τ := by
    rw [hr, show p = (1 + ε) ^ 2 / 2 + τ by rw [hτ]; ring]; ring
  have hrb : |r| ≤ 3 / 2 := by rw [hr', abs_le]; constructor <;> linarith
  have hmain : g * r - S = S * (-(3 / 2) * ε ^ 2 - ε ^ 3 / 2) - S * (1 + ε) * τ + a * r := by
    rw [show g * r = S * (1 + ε) * r + a * r by rw [hg']; ring, show S * (1 + ε) * r = S * (1 + ε) * (1 - ε - ε ^ 2 / 2 - τ) by rw [hr']]
    ring
  have m1 : |S * (-(3 / 2) * ε ^ 2 - ε ^ 3 / 2)| ≤ 2 * ρ ^ 2 * S := by
    rw [abs_mul, abs_of_pos hS, mul_comm]
    refine mul_le_mul_of_nonneg_right ?_ hS.le
    have : |-(3 / 2) * ε ^ 2 - ε ^ 3 / 2| = ε ^ 2 * (3 / 2 + ε / 2) := by
      rw [show -(3 / 2) * ε ^ 2 - ε ^ 3 / 2 = -(ε ^ 2 * (3 / 2 + ε / 2)) by ring, abs_neg, abs_of_nonneg]
      exact mul_nonneg (sq_nonneg _) (by linarith)
    rw [this]
    calc _ ≤ ε ^ 2 * 2 := mul_le_mul_of_nonneg_left (by linarith) (sq_nonneg _)
      _ ≤ _ := by linarith
  have m2 : |S * (1 + ε) * τ| ≤ 5 / 2 * κ * S := by
    rw [abs_mul, abs_mul, abs_of_pos hS]
    have : |1 + ε| ≤ 5 / 4 := by rw [abs_le]; constructor <;> linarith
    calc S * |1 + ε| * |τ| ≤ S * (5 / 4) * (2 * κ) := mul_le_mul (mul_le_mul_of_nonneg_left this hS.le) hτb (abs_nonneg _) (by positivity)
      _ = _ := by ring
  have m3 : |a * r| ≤ 3 / 2 * δ := by
    rw [abs_mul, mul_comm]; exact mul_le_mul hrb hg (abs_nonneg _) (by norm_num)
  have s1 := abs_add_le (o - g * r) (g * r - S)
  rw [sub_add_sub_cancel] at s1
  have s2 := abs_add_le (S * (-(3 / 2) * ε ^ 2 - ε ^ 3 / 2) - S * (1 + ε) * τ) (a * r)
  have s3 := abs_sub (S * (-(3 / 2) * ε ^ 2 - ε ^ 3 / 2)) (S * (1 + ε) * τ)
  rw [hmain] at s1
  linarith

/-- an encoded dyadic constant is exact -/
theorem val_encZ_exact {w : ℕ} (hw : 0 < w) (f : ℕ) (m : ℤ) (s : ℕ) (hs : s ≤ f) (h : |(m : ℚ)| * 2 ^ f < 2 ^ (w - 1)) : val f (encZ w f m s) = m / 2 ^ s := by
  have e : (m * 2 ^ f).tdiv (2 ^ s) = m * 2 ^ (f - s) := by
    rw [show (2 : ℤ) ^ f = 2 ^ (f - s) * 2 ^ s by rw [← pow_add]; congr 1; omega, ← mul_assoc]
    exact Int.mul_tdiv_cancel _ (by positivity)
  rw [encZ, e, val_of_eq hw f _ _ rfl]
  · push_cast
    rw [div_eq_div_iff (by positivity) (by positivity), mul_assoc, ← pow_add]
    congr 2; omega
  · push_cast
    rw [abs_mul, abs_of_pos (by positivity : (0 : ℚ) < 2 ^ (f - s))]
    refine lt_of_le_of_lt (mul_le_mul_of_nonneg_left ?_ (abs_nonneg _)) h
    exact pow_le_pow_right₀ (by norm_num) (by omega)

/-- a product in real numbers -/
theorem rfmul {w : ℕ} (hw : 0 < w) {f d : ℕ} {R : ℤ} {T : BitVec w → BitVec w} (ht : TruncOk f d R T) (hR : R ≤ 2 ^ (w - 1)) (hR3 : 2 ^ (3 * f) ≤ R)
    (x y : BitVec w) (h : |(val f x : ℝ) * val f y| < 2 ^ f) : |(val f (fmul T x y) : ℝ) - val f x * val f y| ≤ d / 2 ^ f := by
  have hq : |val f x * val f y| < 2 ^ f := by exact_mod_cast h
  have hR3q : 2 ^ (3 * f) ≤ (R : ℚ) := by exact_mod_cast hR3
  have := val_fmul hw ht hR x y (by
    refine lt_of_lt_of_le ?_ hR3q
    rw [show 3 * f = f + 2 * f by ring, pow_add]
    exact mul_lt_mul_of_pos_right hq (by positivity))
  have e : |((val f (fmul T x y) - val f x * val f y : ℚ) : ℝ)| ≤ ((d / 2 ^ f : ℚ) : ℝ) := by exact_mod_cast this
  push_cast at e; exact e

set_option maxHeartbeats 800000 in
/-- C91: the square root of a secret in the range of the reciprocal square root. -/
theorem c91_sqrt (t : ℕ) (h128 : 2 ^ (t + 1) ≤ 128) {f d : ℕ} (hf8 : 8 ≤ f) {R : ℤ} {T : ℕ → BitVec (2 ^ (t + 1)) → BitVec (2 ^ (t + 1))}
    (ht : TruncOk f d R (T f)) (hR : R ≤ 2 ^ (2 ^ (t + 1) - 1)) (hR3 : 2 ^ (3 * f) ≤ R) (hd : (d : ℚ) / 2 ^ f ≤ 1 / 256) (lower : Bool)
    (x : BitVec (2 ^ (t + 1))) (h0 : 0 < val f x) (h1 : val f x < rsqRange f)
    (hρ : (rsqRho lower f d : ℝ) + d / 2 ^ f * √(val f x) ≤ 1 / 4) (hκ : (d : ℝ) / 2 ^ f * (√(val f x) + 1 / √(val f x)) ≤ 1 / 8) :
    ∃ r, PolyApprox.sqrt T f lower x = some r ∧
      |(val f r : ℝ) - √(val f x)| ≤ 2 * (rsqRho lower f d + d / 2 ^ f * √(val f x)) ^ 2 * √(val f x) + 5 / 2 * (d / 2 ^ f) * (val f x + 2) := by
  have hw0 : 0 < 2 ^ (t + 1) := by positivity
  have h3w : 3 * f ≤ 2 ^ (t + 1) - 1 := by
    have : (2 : ℤ) ^ (3 * f) ≤ 2 ^ (2 ^ (t + 1) - 1) := hR3.trans hR
    exact (pow_le_pow_iff_right₀ (by norm_num)).1 this
  have hpf : (0 : ℚ) < 2 ^ f := by positivity
  have hpfr : (0 : ℝ) < 2 ^ f := by positivity
  have hX0 : (0 : ℝ) < val f x := by exact_mod_cast h0
  have hbig : (4 : ℚ) * 2 ^ f < 2 ^ (2 ^ (t + 1) - 1) := by
    calc (4 : ℚ) * 2 ^ f = 2 ^ (2 + f) := by rw [pow_add]; norm_num
      _ < 2 ^ (2 ^ (t + 1) - 1) := pow_lt_pow_right₀ (by norm_num) (by omega)
  -- the size of the root
  set S : ℝ := √(val f x) with hS
  have hS0 : 0 < S := Real.sqrt_pos.2 hX0
  have hSX : (val f x : ℝ) = S ^ 2 := (Real.sq_sqrt hX0.le).symm
  have hf16 : (2 : ℝ) ^ f = 16 * 2 ^ (f - 4) := by
    rw [show (16 : ℝ) = 2 ^ 4 by norm_num, ← pow_add]; congr 1; omega
  have hp4 : (16 : ℝ) ≤ 2 ^ (f - 4) := by
    calc (16 : ℝ) = 2 ^ 4 := by norm_num
      _ ≤ _ := pow_le_pow_right₀ (by norm_num) (by omega)
  have hS1 : S ≤ 2 ^ (f - 4) := by
    refine Real.sqrt_le_iff.2 ⟨by positivity, ?_⟩
    have : val f x ≤ (2 ^ (f - 4)) ^ 2 := by
      refine h1.le.trans ?_
      rw [← pow_mul, rsqRange]
      split
      · exact pow_le_pow_right₀ (by norm_num) (by omega)
      · exact pow_le_pow_right₀ (by norm_num) (by omega)
    exact_mod_cast this
  have hS2 : 1 / S ≤ 2 ^ (f - 4) := by
    have hx1 : 1 ≤ val f x * 2 ^ f := by
      have : 0 < val f x * 2 ^ f := by positivity
      rw [val_mul_pow] at this ⊢
      have : 0 < x.toInt := by exact_mod_cast this
      exact_mod_cast this
    have hx1 : 1 ≤ (val f x : ℝ) * 2 ^ f := by exact_mod_cast hx1
    rw [one_div]
    refine inv_le_of_inv_le₀ (by positivity) (Real.le_sqrt_of_sq_le ?_)
    have hq : (2 : ℝ) ^ f ≤ (2 ^ (f - 4)) ^ 2 := by
      rw [← pow_mul]; exact pow_le_pow_right₀ (by norm_num) (by omega)
    rw [inv_pow, inv_le_iff_one_le_mul₀ (by positivity)]
    calc 1 ≤ (val f x : ℝ) * 2 ^ f := hx1
      _ ≤ (val f x : ℝ) * (2 ^ (f - 4)) ^ 2 := mul_le_mul_of_nonneg_left hq hX0.le
  set δ : ℝ := d / 2 ^ f with hδ
  have hδ0 : 0 ≤ δ := by positivity
  have hδ1 : δ ≤ 1 / 256 := by
    have : (((d : ℚ) / 2 ^ f : ℚ) : ℝ) ≤ ((1 / 256 : ℚ) : ℝ) := by exact_mod_cast hd
    push_cast at this; exact this
  obtain ⟨y, hy, hyc⟩ := c91_rsqrt t h128 hf8 ht hR hR3 hd lower x h0 h1
  have hyS : |(val f y : ℝ) * S - 1| ≤ rsqRho lower f d + δ * S := by
    rw [show (val f y : ℝ) * S - 1 = (val f y - 1 / S) * S by field_simp, abs_mul, abs_of_pos hS0]
    calc _ ≤ ((rsqRho lower f d : ℝ) * (1 / S) + δ) * S := mul_le_mul_of_nonneg_right hyc hS0.le
      _ = _ := by field_simp
  set ρ : ℝ := rsqRho lower f d + δ * S with hρd
  obtain ⟨y1, y2⟩ := abs_le.1 (hyS.trans hρ)
  have hyb : |(val f y : ℝ) * S| ≤ 5 / 4 := by rw [abs_le]; constructor <;> linarith
  -- the two products
  have hXy : (val f x : ℝ) * val f y = S * (val f y * S) := by rw [hSX]; ring
  have hgb : |(val f x : ℝ) * val f y| ≤ 5 / 4 * 2 ^ (f - 4) := by
    rw [hXy, abs_mul, abs_of_pos hS0, mul_comm]
    exact mul_le_mul hyb hS1 hS0.le (by norm_num)
  have hg := rfmul hw0 ht hR hR3 x y (by rw [hf16]; linarith)
  set g := fmul (T f) x y with hgd
  have hhalf : val f (encZ (2 ^ (t + 1)) f 1 1) = 1 / 2 := by
    rw [val_encZ_exact hw0 f 1 1 (by omega) (by push_cast; rw [abs_one]; linarith)]; norm_num
  have h32 : val f (encZ (2 ^ (t + 1)) f 3 1) = 3 / 2 := by
    rw [val_encZ_exact hw0 f 3 1 (by omega) (by push_cast; rw [abs_of_pos (by norm_num)]; linarith)]; norm_num
  have hhr : ((val f (encZ (2 ^ (t + 1)) f 1 1) : ℚ) : ℝ) = 1 / 2 := by rw [hhalf]; norm_num
  have hyb2 : |(val f y : ℝ)| ≤ 5 / 4 * 2 ^ (f - 4) := by
    rw [show (val f y : ℝ) = val f y * S * (1 / S) by field_simp, abs_mul, abs_of_pos (by positivity : 0 < 1 / S)]
    exact mul_le_mul hyb hS2 (by positivity) (by norm_num)
  have hh := rfmul hw0 ht hR hR3 y (encZ (2 ^ (t + 1)) f 1 1) (by
    rw [hhr, hf16, abs_mul, abs_of_pos (by norm_num : (0 : ℝ) < 1 / 2)]; linarith)
  rw [hhr] at hh
  set h := fmul (T f) y (encZ (2 ^ (t + 1)) f 1 1) with hhd
  have hgh := (goldschmidt (p := val f g * val f h) (o := val f g * (3 / 2 - val f g * val f h)) hS0 hSX hρ hδ0 hδ1 rfl hκ hyS hg hh
    (by rw [sub_self, abs_zero]; exact hδ0) rfl (by rw [sub_self, abs_zero]; exact hδ0)).1
  obtain ⟨i1, i2⟩ := abs_le.1 hgh
  have hp := rfmul hw0 ht hR hR3 g h (by
    refine lt_of_le_of_lt (b := 2) ?_ (by rw [hf16]; linarith)
    rw [abs_le]; constructor <;> linarith)
  set p := fmul (T f) g h with hpd
  have hpb := (goldschmidt (p := val f p) (o := val f g * (3 / 2 - val f p)) hS0 hSX hρ hδ0 hδ1 rfl hκ hyS hg hh hp rfl
    (by rw [sub_self, abs_zero]; exact hδ0)).1
  obtain ⟨j1, j2⟩ := abs_le.1 hpb
  have hpq : |val f p| ≤ 2 := by
    have : |(val f p : ℝ)| ≤ 2 := by rw [abs_le]; constructor <;> linarith
    exact_mod_cast this
  have hr : val f (HalRing.sub (encZ (2 ^ (t + 1)) f 3 1) p) = 3 / 2 - val f p := by
    rw [val_sub hw0 f _ _ (by
      rw [h32]
      obtain ⟨k1, k2⟩ := abs_le.1 hpq
      have : |3 / 2 - val f p| ≤ 4 := by rw [abs_le]; constructor <;> linarith
      exact lt_of_le_of_lt (mul_le_mul_of_nonneg_right this hpf.le) hbig), h32]
  set r := HalRing.sub (encZ (2 ^ (t + 1)) f 3 1) p with hrd
  have hrr : (val f r : ℝ) = 3 / 2 - val f p := by rw [hr]; push_cast; ring
  have ho := rfmul hw0 ht hR hR3 g r (by
    have a : |(val f r : ℝ)| ≤ 7 / 4 := by rw [hrr, abs_le]; constructor <;> linarith
    have b : |(val f g : ℝ)| ≤ 2 * 2 ^ (f - 4) := by
      have := abs_add_le ((val f g : ℝ) - val f x * val f y) (val f x * val f y)
      rw [sub_add_cancel] at this
      linarith
    rw [abs_mul, hf16]
    calc _ ≤ 2 * 2 ^ (f - 4) * (7 / 4 : ℝ) := mul_le_mul b a (abs_nonneg _) (by positivity)
      _ < _ := by linarith)
  have hfin := (goldschmidt (o := val f (fmul (T f) g r)) hS0 hSX hρ hδ0 hδ1 rfl hκ hyS hg hh hp hrr ho).2
  refine ⟨fmul (T f) g r, ?_, ?_⟩
  · simp only [PolyApprox.sqrt, hy, Option.bind_eq_bind, Option.bind_some, Option.pure_def, ← hgd, ← hhd, ← hpd, ← hrd]
  · refine hfin.trans (le_of_eq ?_)
    rw [hSX]; field_simp; ring

/-- the square root of four with 18 fraction bits -/
example : ∃ r, PolyApprox.sqrt (fun b (v : BitVec (2 ^ (5 + 1))) => v.sshiftRight b) 18 false (BitVec.ofInt 64 (2 ^ 20)) = some r ∧
    |(val 18 r : ℝ) - 2| ≤ 1 / 5000 := by
  have e : val 18 (BitVec.ofInt 64 (2 ^ 20)) = 4 := by
    rw [val, show (BitVec.ofInt 64 (2 ^ 20)).toInt = 2 ^ 20 by decide]; norm_num
  have s : √((val 18 (BitVec.ofInt 64 (2 ^ 20)) : ℚ) : ℝ) = 2 := by
    rw [e, show (((4 : ℚ)) : ℝ) = 2 ^ 2 by push_cast; norm_num, Real.sqrt_sq (by norm_num)]
  obtain ⟨r, h1, h2⟩ := c91_sqrt 5 (by norm_num) (f := 18) (d := 1) (R := 2 ^ 62) (T := fun b (v : BitVec (2 ^ (5 + 1))) => v.sshiftRight b)
    (by norm_num) (truncOk_sar 18 _) (by norm_num) (by norm_num) (by norm_num) false (BitVec.ofInt 64 (2 ^ 20)) (by rw [e]; norm_num)
    (by rw [e, rsqRange]; norm_num) (by rw [s, rsqRho]; norm_num) (by rw [s]; norm_num)
  refine ⟨r, h1, ?_⟩
  rw [s, e, rsqRho] at h2
  refine h2.trans ?_
  norm_num

/-- C91: the polynomial whose truncation is told that its argument is positive is below −1 on the whole interval. -/
theorem c91_hint_sign (lower : Bool) (v : ℚ) (h0 : 1 / 4 ≤ v) (h1 : v ≤ 1 / 2) : evalPoly (rsqrtCoeffs lower).1.tail v ≤ -1 := by
  have h := rsqP_eq lower v
  obtain ⟨a, b⟩ := rsqP_sq lower v h0 h1
  have hc : 318 / 100 ≤ coef (rsqrtCoeffs lower).2 := by cases lower <;> decide +kernel
  have he : rsqEps lower ≤ 12 / 1000 := by cases lower <;> norm_num [rsqEps]
  have : rsqP lower v ≤ 21 / 10 := by
    by_contra hcon
    obtain ⟨q1, q2⟩ := abs_le.1 a
    have h3 : (21 / 10 : ℚ) ^ 2 ≤ rsqP lower v ^ 2 := pow_le_pow_left₀ (by norm_num) (by linarith) 2
    nlinarith
  linarith

open Spu.Model.CheetahOt Spu.Model.CheetahTrunc Spu.Spec in
/-- C91: on Cheetah the wrong hint can spoil the result: for the argument 1 with 18 fraction bits (normalised to a quarter, `2^16`) the sum of products
is `-147265682432`, which the exact truncation turns into `-561774`; with the shares `2^63 - 1` and the rest, the hinted truncation yields `2^46 - 561774`,
while without the hint it is right. -/
theorem c91_hint_wrong :
    polynomial (fun b (v : BitVec 64) => v.sshiftRight b) 18 (BitVec.ofInt 64 (2 ^ 16)) ((rsqrtCoeffs false).1.map fun c => encZ 64 18 c.1 c.2) =
      some ((BitVec.ofInt 64 (-147265682432)).sshiftRight 18) ∧ ((BitVec.ofInt 64 (-147265682432)).sshiftRight 18).toInt = -561774 ∧
    peek (truncA (idealOt 64) (fun _ _ _ _ => 0) 18 .positive 1 fun p _ => if p = 0 then BitVec.intMax 64 else BitVec.ofInt 64 (-147265682432) - BitVec.intMax 64) 5
      (fun z => valA z 0) = some (2 ^ 46 - 561774) ∧
    peek (truncA (idealOt 64) (fun _ _ _ _ => 0) 18 .unknown 1 fun p _ => if p = 0 then BitVec.intMax 64 else BitVec.ofInt 64 (-147265682432) - BitVec.intMax 64) 5
      (fun z => valA z 0) = some (2 ^ 64 - 561774) := by
  refine ⟨by decide +kernel, by decide +kernel, by decide +kernel, by decide +kernel⟩

end Spu.Props

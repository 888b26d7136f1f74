import Verif.Model.Tanh
import Verif.Props.TanhPoly
import Verif.Props.Trig

set_option autoImplicit false

/-! # C95: hyperbolic tangent of a secret -/

namespace Spu.Props
open Spu.Model Spu.Model.HalRing Spu.Model.FxpDiv Spu.Model.PolyApprox Spu.Model.Trig Spu.Model.Tanh Spu.Spec.FxpDiv Spu.Spec.Rounding

variable {w : ℕ}

/-- the odd Chebyshev polynomials, by the recurrence -/
def tt (v : ℚ) : ℕ → ℚ
  | 0 => v
  | 1 => v * (4 * (v * v) - 2 - 1)
  | k + 2 => (4 * (v * v) - 2) * tt v (k + 1) - tt v k

theorem tt_cos (v : ℚ) (θ : ℝ) (h : (v : ℝ) = Real.cos θ) : ∀ k : ℕ, (tt v k : ℝ) = Real.cos ((2 * k + 1) * θ) := by
  intro k
  induction k using Nat.strong_induction_on with
  | _ k ih =>
    match k with
    | 0 => simp [tt, h]
    | 1 =>
      rw [tt]
      push_cast
      rw [h, show (2 * 1 + 1 : ℝ) * θ = 3 * θ by ring, Real.cos_three_mul]; ring
    | k + 2 =>
      rw [tt, Rat.cast_sub, Rat.cast_mul, ih (k + 1) (by omega), ih k (by omega)]
      push_cast
      rw [h, show (2 * ((k : ℝ) + 2) + 1) * θ = (2 * (k + 1) + 1) * θ + 2 * θ by ring, show (2 * (k : ℝ) + 1) * θ = (2 * (k + 1) + 1) * θ - 2 * θ by ring,
        Real.cos_add, Real.cos_sub, Real.cos_two_mul]
      ring

theorem tt_le (v : ℚ) (hv : |v| ≤ 1) (k : ℕ) : |tt v k| ≤ 1 := by
  have hv' : |(v : ℝ)| ≤ 1 := by exact_mod_cast hv
  rw [abs_le] at hv'
  have := tt_cos v (Real.arccos v) (Real.cos_arccos hv'.1 hv'.2).symm k
  have h : |(tt v k : ℝ)| ≤ 1 := by rw [this]; exact Real.abs_cos_le_one _
  exact_mod_cast h

/-- one round of the recurrence, with an error of the factor -/
theorem cheb_step_err (hw : 0 < w) {f d : ℕ} {R : ℤ} {T : BitVec w → BitVec w} (ht : TruncOk f d R T) (hR : R ≤ 2 ^ (w - 1))
    (hR8 : 8 * 2 ^ (2 * f) ≤ R) (yw a b : BitVec w) (Y A B α β γ η : ℚ) (hδ : (d : ℚ) / 2 ^ f ≤ η) (hη : η ≤ 1 / 1000) (hγ : γ = 13 * η) (hY : |val f yw - Y| ≤ γ) (hY2 : |Y| ≤ 2)
    (hA : |A| ≤ 1) (hB : |B| ≤ 1) (ha : |val f a - A| ≤ α) (hb : |val f b - B| ≤ β) (hα : α ≤ 1 / 4) (hβ : β ≤ 1 / 4) :
    |val f (sub (fmul T yw a) b) - (Y * A - B)| ≤ 2 * α + β + 18 * η := by
  have hδ0 : (0 : ℚ) ≤ d / 2 ^ f := by positivity
  have hp : (0 : ℚ) < 2 ^ f := by positivity
  have hp2 : (0 : ℚ) < 2 ^ (2 * f) := by positivity
  have hff : (2 : ℚ) ^ f ≤ 2 ^ (2 * f) := pow_le_pow_right₀ (by norm_num) (by omega)
  have hRq : (R : ℚ) ≤ 2 ^ (w - 1) := by exact_mod_cast hR
  have hR8q : 8 * 2 ^ (2 * f) ≤ (R : ℚ) := by exact_mod_cast hR8
  have by_ : |val f yw| ≤ 202 / 100 := by
    have := abs_add_le (val f yw - Y) Y; rw [sub_add_cancel] at this; linarith
  have ba : |val f a| ≤ 5 / 4 := by
    have := abs_add_le (val f a - A) A; rw [sub_add_cancel] at this; linarith
  have bb : |val f b| ≤ 5 / 4 := by
    have := abs_add_le (val f b - B) B; rw [sub_add_cancel] at this; linarith
  have bya : |val f yw * val f a| ≤ 3 := by
    rw [abs_mul]; exact (mul_le_mul by_ ba (abs_nonneg _) (by norm_num)).trans (by norm_num)
  have hm := val_fmul hw ht hR yw a (lt_of_le_of_lt (mul_le_mul_of_nonneg_right bya hp2.le) (by linarith))
  set m := fmul T yw a
  have bm : |val f m| ≤ 4 := by
    have := abs_add_le (val f m - val f yw * val f a) (val f yw * val f a); rw [sub_add_cancel] at this; linarith
  have bmb : |val f m - val f b| ≤ 6 := by
    have := abs_sub (val f m) (val f b); linarith
  rw [val_sub hw f _ _ (lt_of_le_of_lt (mul_le_mul_of_nonneg_right bmb hp.le) (by linarith))]
  have e : val f m - val f b - (Y * A - B) = (val f m - val f yw * val f a) + (val f yw - Y) * val f a + Y * (val f a - A) + -(val f b - B) := by ring
  have e1 : |(val f yw - Y) * val f a| ≤ γ * (5 / 4) := by
    rw [abs_mul]; exact mul_le_mul hY ba (abs_nonneg _) (by linarith)
  have e2 : |Y * (val f a - A)| ≤ 2 * α := by
    rw [abs_mul]; exact mul_le_mul hY2 ha (abs_nonneg _) (by norm_num)
  rw [e]
  refine (abs_add_le _ _).trans ?_
  rw [abs_neg]
  have := abs_add_three (val f m - val f yw * val f a) ((val f yw - Y) * val f a) (Y * (val f a - A))
  linarith

set_option maxHeartbeats 1600000 in
/-- the nine polynomials at a word close to a number between `-1` and `1` -/
theorem cheb_nine (hw : 0 < w) {f d : ℕ} {R : ℤ} {T : ℕ → BitVec w → BitVec w} (ht : TruncOk f d R (T f)) (hR : R ≤ 2 ^ (w - 1))
    (hR8 : 8 * 2 ^ (2 * f) ≤ R) (η : ℚ) (hδ : (d : ℚ) / 2 ^ f ≤ η) (hη : η ≤ 1 / 22000) (x : BitVec w) (v : ℚ) (hv : |v| ≤ 1) (c0 : |val f x - v| ≤ 1 * η) :
    ∃ p1 p2 p3 p4 p5 p6 p7 p8, cheb T f x 9 = [x, p1, p2, p3, p4, p5, p6, p7, p8] ∧ |val f p1 - tt v 1| ≤ 18 * η ∧
      |val f p2 - tt v 2| ≤ 55 * η ∧
      |val f p3 - tt v 3| ≤ 146 * η ∧
      |val f p4 - tt v 4| ≤ 365 * η ∧
      |val f p5 - tt v 5| ≤ 894 * η ∧
      |val f p6 - tt v 6| ≤ 2171 * η ∧
      |val f p7 - tt v 7| ≤ 5254 * η ∧
      |val f p8 - tt v 8| ≤ 12697 * η := by
  have hδ0 : (0 : ℚ) ≤ d / 2 ^ f := by positivity
  have hp : (0 : ℚ) < 2 ^ f := by positivity
  have hp2 : (0 : ℚ) < 2 ^ (2 * f) := by positivity
  have hff : (2 : ℚ) ^ f ≤ 2 ^ (2 * f) := pow_le_pow_right₀ (by norm_num) (by omega)
  have hRq : (R : ℚ) ≤ 2 ^ (w - 1) := by exact_mod_cast hR
  have hR8q : 8 * 2 ^ (2 * f) ≤ (R : ℚ) := by exact_mod_cast hR8
  have hη0 : 0 ≤ η := hδ0.trans hδ
  have hxb : |val f x| ≤ 101 / 100 := by
    have := abs_add_le (val f x - v) v; rw [sub_add_cancel] at this; linarith
  have hxx : |val f x * val f x| ≤ 11 / 10 := by
    rw [abs_mul]; exact (mul_le_mul hxb hxb (abs_nonneg _) (by norm_num)).trans (by norm_num)
  have hvv : |v * v| ≤ 1 := by rw [abs_mul]; exact mul_le_one₀ hv (abs_nonneg _) hv
  have hv2 : v * v ≤ 1 := (le_abs_self _).trans hvv
  have hv0 : 0 ≤ v * v := mul_self_nonneg v
  have hsq := val_fmul hw ht hR x x (lt_of_le_of_lt (mul_le_mul_of_nonneg_right hxx hp2.le) (by linarith))
  set sq := fmul (T f) x x with hsqd
  have bsq : |val f sq| ≤ 12 / 10 := by
    have := abs_add_le (val f sq - val f x * val f x) (val f x * val f x); rw [sub_add_cancel] at this; linarith
  have hsv : |val f sq - v * v| ≤ 13 / 4 * η := by
    have e : val f sq - v * v = (val f sq - val f x * val f x) + (val f x - v) * (val f x + v) := by ring
    have e1 : |(val f x - v) * (val f x + v)| ≤ 1 * η * (201 / 100) := by
      rw [abs_mul]; exact mul_le_mul c0 ((abs_add_le _ _).trans (by linarith)) (abs_nonneg _) (by linarith)
    rw [e]; exact (abs_add_le _ _).trans (by linarith)
  have b4 : |4 * val f sq| ≤ 5 := by rw [abs_mul, abs_of_pos (by norm_num : (0 : ℚ) < 4)]; linarith
  have h4 := val_four hw f sq (lt_of_le_of_lt (mul_le_mul_of_nonneg_right b4 hp.le) (by linarith))
  have h2 : val f (encZ w f 2 0) = 2 := by
    rw [val_encZ_exact hw f 2 0 (Nat.zero_le f) (by norm_num; linarith)]; norm_num
  have hyw : val f (sub (BitVec.ofNat w 4 * sq) (encZ w f 2 0)) = 4 * val f sq - 2 := by
    have b2 : |4 * val f sq - 2| ≤ 7 := by
      rw [abs_le] at b4 ⊢; constructor <;> linarith
    rw [val_sub hw f _ _ (by rw [h4, h2]; exact lt_of_le_of_lt (mul_le_mul_of_nonneg_right b2 hp.le) (by linarith)), h4, h2]
  set yw := sub (BitVec.ofNat w 4 * sq) (encZ w f 2 0) with hywd
  set Y := 4 * (v * v) - 2 with hYd
  have hY : |val f yw - Y| ≤ 13 * η := by
    rw [hyw, hYd, show 4 * val f sq - 2 - (4 * (v * v) - 2) = 4 * (val f sq - v * v) by ring, abs_mul, abs_of_pos (by norm_num : (0 : ℚ) < 4)]
    linarith
  have hY2 : |Y| ≤ 2 := by rw [hYd, abs_le]; constructor <;> linarith
  have bY : |val f yw| ≤ 202 / 100 := by
    have := abs_add_le (val f yw - Y) Y; rw [sub_add_cancel] at this; linarith
  have hone : val f (kOne w f) = 1 := val_kOne hw hR (by linarith [(by positivity : (0 : ℤ) < 2 ^ (2 * f))])
  have bz : |val f yw - 1| ≤ 302 / 100 := by rw [abs_le] at bY ⊢; constructor <;> linarith
  have hz : val f (sub yw (kOne w f)) = val f yw - 1 := by
    rw [val_sub hw f _ _ (by rw [hone]; exact lt_of_le_of_lt (mul_le_mul_of_nonneg_right bz hp.le) (by linarith)), hone]
  set z := sub yw (kOne w f) with hzd
  have bxz : |val f x * val f z| ≤ 4 := by
    rw [abs_mul, hz]; exact (mul_le_mul hxb bz (abs_nonneg _) (by norm_num)).trans (by norm_num)
  have hp1 := val_fmul hw ht hR x z (lt_of_le_of_lt (mul_le_mul_of_nonneg_right bxz hp2.le) (by linarith))
  set p1 := fmul (T f) x z with hp1d
  have c1 : |val f p1 - tt v 1| ≤ 18 * η := by
    have e : val f p1 - tt v 1 = (val f p1 - val f x * val f z) + (val f x - v) * val f z + v * (val f yw - Y) := by
      rw [hz, tt, ← hYd]; ring
    have e1 : |v * (val f yw - Y)| ≤ 1 * (13 * η) := by
      rw [abs_mul]; exact mul_le_mul hv hY (abs_nonneg _) (by norm_num)
    have e2 : |(val f x - v) * val f z| ≤ 1 * η * (302 / 100) := by
      rw [abs_mul, hz]; exact mul_le_mul c0 bz (abs_nonneg _) (by linarith)
    rw [e]; exact (abs_add_three _ _ _).trans (by linarith)
  have L := tt_le v hv
  have c0 : |val f x - tt v 0| ≤ 1 * η := c0
  have c2 := cheb_step_err hw ht hR hR8 yw p1 x Y (tt v 1) (tt v 0) (18 * η) (1 * η) _ η hδ (by linarith) rfl hY hY2 (L 1) (L 0) c1 c0 (by linarith) (by linarith)
  rw [show Y * tt v 1 - tt v 0 = tt v 2 from rfl, show 2 * (18 * η) + 1 * η + 18 * η = 55 * η by ring] at c2
  set p2 := sub (fmul (T f) yw p1) x with hp2d
  have c3 := cheb_step_err hw ht hR hR8 yw p2 p1 Y (tt v 2) (tt v 1) (55 * η) (18 * η) _ η hδ (by linarith) rfl hY hY2 (L 2) (L 1) c2 c1 (by linarith) (by linarith)
  rw [show Y * tt v 2 - tt v 1 = tt v 3 from rfl, show 2 * (55 * η) + 18 * η + 18 * η = 146 * η by ring] at c3
  set p3 := sub (fmul (T f) yw p2) p1 with hp3d
  have c4 := cheb_step_err hw ht hR hR8 yw p3 p2 Y (tt v 3) (tt v 2) (146 * η) (55 * η) _ η hδ (by linarith) rfl hY hY2 (L 3) (L 2) c3 c2 (by linarith) (by linarith)
  rw [show Y * tt v 3 - tt v 2 = tt v 4 from rfl, show 2 * (146 * η) + 55 * η + 18 * η = 365 * η by ring] at c4
  set p4 := sub (fmul (T f) yw p3) p2 with hp4d
  have c5 := cheb_step_err hw ht hR hR8 yw p4 p3 Y (tt v 4) (tt v 3) (365 * η) (146 * η) _ η hδ (by linarith) rfl hY hY2 (L 4) (L 3) c4 c3 (by linarith) (by linarith)
  rw [show Y * tt v 4 - tt v 3 = tt v 5 from rfl, show 2 * (365 * η) + 146 * η + 18 * η = 894 * η by ring] at c5
  set p5 := sub (fmul (T f) yw p4) p3 with hp5d
  have c6 := cheb_step_err hw ht hR hR8 yw p5 p4 Y (tt v 5) (tt v 4) (894 * η) (365 * η) _ η hδ (by linarith) rfl hY hY2 (L 5) (L 4) c5 c4 (by linarith) (by linarith)
  rw [show Y * tt v 5 - tt v 4 = tt v 6 from rfl, show 2 * (894 * η) + 365 * η + 18 * η = 2171 * η by ring] at c6
  set p6 := sub (fmul (T f) yw p5) p4 with hp6d
  have c7 := cheb_step_err hw ht hR hR8 yw p6 p5 Y (tt v 6) (tt v 5) (2171 * η) (894 * η) _ η hδ (by linarith) rfl hY hY2 (L 6) (L 5) c6 c5 (by linarith) (by linarith)
  rw [show Y * tt v 6 - tt v 5 = tt v 7 from rfl, show 2 * (2171 * η) + 894 * η + 18 * η = 5254 * η by ring] at c7
  set p7 := sub (fmul (T f) yw p6) p5 with hp7d
  have c8 := cheb_step_err hw ht hR hR8 yw p7 p6 Y (tt v 7) (tt v 6) (5254 * η) (2171 * η) _ η hδ (by linarith) rfl hY hY2 (L 7) (L 6) c7 c6 (by linarith) (by linarith)
  rw [show Y * tt v 7 - tt v 6 = tt v 8 from rfl, show 2 * (5254 * η) + 2171 * η + 18 * η = 12697 * η by ring] at c8
  set p8 := sub (fmul (T f) yw p7) p6 with hp8d
  refine ⟨p1, p2, p3, p4, p5, p6, p7, p8, ?_, c1, c2, c3, c4, c5, c6, c7, c8⟩
  simp only [cheb, ← hsqd, ← hywd, ← hzd, ← hp1d]
  simp [chebLoop, ← hp2d, ← hp3d, ← hp4d, ← hp5d, ← hp6d, ← hp7d, ← hp8d]

set_option maxHeartbeats 1600000 in
/-- the inner product with the coefficients of the hyperbolic tangent, truncated -/
theorem tanh_dot (hw : 0 < w) {f d : ℕ} {R : ℤ} {T : ℕ → BitVec w → BitVec w} (ht : TruncOk f d R (T f)) (hR : R ≤ 2 ^ (w - 1))
    (hu : (1 : ℚ) / 2 ^ f ≤ 1 / 256) (hR8 : 8 * 2 ^ (2 * f) ≤ R) (η : ℚ) (hδ : (d : ℚ) / 2 ^ f ≤ η) (hη : η ≤ 1 / 22000)
    (x : BitVec w) (v : ℚ) (hv : |v| ≤ 1) (hx : |val f x - v| ≤ 1 * η) :
    |(val f (T f (dot (tanhCoeffs.map fun c => encZ w f c.1 c.2) (cheb T f x 9))) : ℝ) - tanhP v| ≤ 230 * η + 9 * (1 / 2 ^ f) := by
  obtain ⟨p1, p2, p3, p4, p5, p6, p7, p8, hcheb, q1, q2, q3, q4, q5, q6, q7, q8⟩ := cheb_nine hw ht hR hR8 η hδ hη x v hv hx
  rw [hcheb]
  have hδ0 : (0 : ℚ) ≤ d / 2 ^ f := by positivity
  have hη0 : 0 ≤ η := hδ0.trans hδ
  set u : ℚ := 1 / 2 ^ f with hud
  have hu0 : 0 ≤ u := by rw [hud]; positivity
  have hp : (0 : ℚ) < 2 ^ f := by positivity
  have hp2 : (0 : ℚ) < 2 ^ (2 * f) := by positivity
  have hff : (2 : ℚ) ^ f ≤ 2 ^ (2 * f) := pow_le_pow_right₀ (by norm_num) (by omega)
  have hRq : (R : ℚ) ≤ 2 ^ (w - 1) := by exact_mod_cast hR
  have hR8q : 8 * 2 ^ (2 * f) ≤ (R : ℚ) := by exact_mod_cast hR8
  have enc : ∀ (m : ℤ) (s : ℕ), |(m : ℚ)| / 2 ^ s ≤ 2 → |val f (encZ w f m s) - m / 2 ^ s| ≤ u ∧ |val f (encZ w f m s)| ≤ |(m : ℚ) / 2 ^ s| := by
    intro m s hm
    have hs : (0 : ℚ) < 2 ^ s := by positivity
    rw [div_le_iff₀ hs] at hm
    have := val_encZ hw f m s (by
      have : |(m : ℚ)| * 2 ^ f < 2 ^ (w - 1) * 2 ^ s := by
        have h1 : |(m : ℚ)| * 2 ^ f ≤ 2 * 2 ^ s * 2 ^ f := mul_le_mul_of_nonneg_right hm hp.le
        have h2 : 0 < (2 : ℚ) ^ s * 2 ^ f := by positivity
        have h3 : 8 * 2 ^ f * 2 ^ s ≤ (2 : ℚ) ^ (w - 1) * 2 ^ s := mul_le_mul_of_nonneg_right (by linarith) hs.le
        linarith
      exact_mod_cast this)
    rw [abs_div, abs_of_pos hs]; exact this
  have L := tt_le v hv
  have q0 : |val f x - tt v 0| ≤ 1 * η := hx
  have m0 := enc 10497543 23 (by norm_num [abs_of_pos, abs_of_neg])
  have r0 := coefTerm_close m0.1 m0.2 q0 (L 0) hu0
  have a0 : |((10497543 : ℤ) : ℚ) / 2 ^ 23| ≤ 125141 / 100000 := by norm_num [abs_of_pos, abs_of_neg]
  have b0 := mul_le_mul_of_nonneg_right a0 (by linarith : 0 ≤ 1 * η)
  set k0 := encZ w f 10497543 23 with hk0
  have m1 := enc (-12267459) 25 (by norm_num [abs_of_pos, abs_of_neg])
  have r1 := coefTerm_close m1.1 m1.2 q1 (L 1) hu0
  have a1 : |((-12267459 : ℤ) : ℚ) / 2 ^ 25| ≤ 36560 / 100000 := by norm_num [abs_of_pos, abs_of_neg]
  have b1 := mul_le_mul_of_nonneg_right a1 (by linarith : 0 ≤ 18 * η)
  set k1 := encZ w f (-12267459) 25 with hk1
  have m2 := enc 11578387 26 (by norm_num [abs_of_pos, abs_of_neg])
  have r2 := coefTerm_close m2.1 m2.2 q2 (L 2) hu0
  have a2 : |((11578387 : ℤ) : ℚ) / 2 ^ 26| ≤ 17254 / 100000 := by norm_num [abs_of_pos, abs_of_neg]
  have b2 := mul_le_mul_of_nonneg_right a2 (by linarith : 0 ≤ 55 * η)
  set k2 := encZ w f 11578387 26 with hk2
  have m3 := enc (-6001845) 26 (by norm_num [abs_of_pos, abs_of_neg])
  have r3 := coefTerm_close m3.1 m3.2 q3 (L 3) hu0
  have a3 : |((-6001845 : ℤ) : ℚ) / 2 ^ 26| ≤ 8944 / 100000 := by norm_num [abs_of_pos, abs_of_neg]
  have b3 := mul_le_mul_of_nonneg_right a3 (by linarith : 0 ≤ 146 * η)
  set k3 := encZ w f (-6001845) 26 with hk3
  have m4 := enc 12805181 28 (by norm_num [abs_of_pos, abs_of_neg])
  have r4 := coefTerm_close m4.1 m4.2 q4 (L 4) hu0
  have a4 : |((12805181 : ℤ) : ℚ) / 2 ^ 28| ≤ 4771 / 100000 := by norm_num [abs_of_pos, abs_of_neg]
  have b4 := mul_le_mul_of_nonneg_right a4 (by linarith : 0 ≤ 365 * η)
  set k4 := encZ w f 12805181 28 with hk4
  have m5 := enc (-3466883) 27 (by norm_num [abs_of_pos, abs_of_neg])
  have r5 := coefTerm_close m5.1 m5.2 q5 (L 5) hu0
  have a5 : |((-3466883 : ℤ) : ℚ) / 2 ^ 27| ≤ 2584 / 100000 := by norm_num [abs_of_pos, abs_of_neg]
  have b5 := mul_le_mul_of_nonneg_right a5 (by linarith : 0 ≤ 894 * η)
  set k5 := encZ w f (-3466883) 27 with hk5
  have m6 := enc 15396171 30 (by norm_num [abs_of_pos, abs_of_neg])
  have r6 := coefTerm_close m6.1 m6.2 q6 (L 6) hu0
  have a6 : |((15396171 : ℤ) : ℚ) / 2 ^ 30| ≤ 1434 / 100000 := by norm_num [abs_of_pos, abs_of_neg]
  have b6 := mul_le_mul_of_nonneg_right a6 (by linarith : 0 ≤ 2171 * η)
  set k6 := encZ w f 15396171 30 with hk6
  have m7 := enc (-4585807) 29 (by norm_num [abs_of_pos, abs_of_neg])
  have r7 := coefTerm_close m7.1 m7.2 q7 (L 7) hu0
  have a7 : |((-4585807 : ℤ) : ℚ) / 2 ^ 29| ≤ 855 / 100000 := by norm_num [abs_of_pos, abs_of_neg]
  have b7 := mul_le_mul_of_nonneg_right a7 (by linarith : 0 ≤ 5254 * η)
  set k7 := encZ w f (-4585807) 29 with hk7
  have m8 := enc 6574595 30 (by norm_num [abs_of_pos, abs_of_neg])
  have r8 := coefTerm_close m8.1 m8.2 q8 (L 8) hu0
  have a8 : |((6574595 : ℤ) : ℚ) / 2 ^ 30| ≤ 613 / 100000 := by norm_num [abs_of_pos, abs_of_neg]
  have b8 := mul_le_mul_of_nonneg_right a8 (by linarith : 0 ≤ 12697 * η)
  set k8 := encZ w f 6574595 30 with hk8
  set S : ℚ := val f k0 * val f x + val f k1 * val f p1 + val f k2 * val f p2 + val f k3 * val f p3 + val f k4 * val f p4 + val f k5 * val f p5 + val f k6 * val f p6 + val f k7 * val f p7 + val f k8 * val f p8 with hS
  set P : ℚ := ((10497543 : ℤ) : ℚ) / 2 ^ 23 * tt v 0 + ((-12267459 : ℤ) : ℚ) / 2 ^ 25 * tt v 1 + ((11578387 : ℤ) : ℚ) / 2 ^ 26 * tt v 2 + ((-6001845 : ℤ) : ℚ) / 2 ^ 26 * tt v 3 + ((12805181 : ℤ) : ℚ) / 2 ^ 28 * tt v 4 + ((-3466883 : ℤ) : ℚ) / 2 ^ 27 * tt v 5 + ((15396171 : ℤ) : ℚ) / 2 ^ 30 * tt v 6 + ((-4585807 : ℤ) : ℚ) / 2 ^ 29 * tt v 7 + ((6574595 : ℤ) : ℚ) / 2 ^ 30 * tt v 8 with hP
  have hSP : |S - P| ≤ 229 * η + 9 * u := by
    have e : S - P = (val f k0 * val f x - ((10497543 : ℤ) : ℚ) / 2 ^ 23 * tt v 0) + (val f k1 * val f p1 - ((-12267459 : ℤ) : ℚ) / 2 ^ 25 * tt v 1) + (val f k2 * val f p2 - ((11578387 : ℤ) : ℚ) / 2 ^ 26 * tt v 2) + (val f k3 * val f p3 - ((-6001845 : ℤ) : ℚ) / 2 ^ 26 * tt v 3) + (val f k4 * val f p4 - ((12805181 : ℤ) : ℚ) / 2 ^ 28 * tt v 4) + (val f k5 * val f p5 - ((-3466883 : ℤ) : ℚ) / 2 ^ 27 * tt v 5) + (val f k6 * val f p6 - ((15396171 : ℤ) : ℚ) / 2 ^ 30 * tt v 6) + (val f k7 * val f p7 - ((-4585807 : ℤ) : ℚ) / 2 ^ 29 * tt v 7) + (val f k8 * val f p8 - ((6574595 : ℤ) : ℚ) / 2 ^ 30 * tt v 8) := by rw [hS, hP]; ring
    rw [e]
    refine ((abs_add_le _ _).trans (add_le_add ((abs_add_le _ _).trans (add_le_add ((abs_add_le _ _).trans (add_le_add ((abs_add_le _ _).trans (add_le_add ((abs_add_le _ _).trans (add_le_add ((abs_add_le _ _).trans (add_le_add ((abs_add_le _ _).trans (add_le_add ((abs_add_le _ _).trans (add_le_add r0 r1)) r2)) r3)) r4)) r5)) r6)) r7)) r8)).trans ?_
    linarith
  have hPb : |P| ≤ 5 / 2 := by
    have g : ∀ {c t b : ℚ}, |c| ≤ b → |t| ≤ 1 → |c * t| ≤ b := fun {c t b} h1 h2 => by
      rw [abs_mul]
      have := mul_le_mul h1 h2 (abs_nonneg _) ((abs_nonneg _).trans h1)
      linarith
    rw [hP]
    refine ((abs_add_le _ _).trans (add_le_add ((abs_add_le _ _).trans (add_le_add ((abs_add_le _ _).trans (add_le_add ((abs_add_le _ _).trans (add_le_add ((abs_add_le _ _).trans (add_le_add ((abs_add_le _ _).trans (add_le_add ((abs_add_le _ _).trans (add_le_add ((abs_add_le _ _).trans (add_le_add (g a0 (L 0)) (g a1 (L 1)))) (g a2 (L 2)))) (g a3 (L 3)))) (g a4 (L 4)))) (g a5 (L 5)))) (g a6 (L 6)))) (g a7 (L 7)))) (g a8 (L 8)))).trans ?_
    norm_num
  have hSb : |S| ≤ 3 := by
    have := abs_add_le (S - P) P; rw [sub_add_cancel] at this; linarith
  set Z : ℤ := k0.toInt * x.toInt + k1.toInt * p1.toInt + k2.toInt * p2.toInt + k3.toInt * p3.toInt + k4.toInt * p4.toInt + k5.toInt * p5.toInt + k6.toInt * p6.toInt + k7.toInt * p7.toInt + k8.toInt * p8.toInt with hZ
  have hZS : (Z : ℚ) = S * 2 ^ (2 * f) := by
    rw [hZ, hS]
    push_cast
    simp only [← val_mul_pow f]
    rw [two_mul, pow_add]; ring
  have hZR : |Z| < R := by
    have : |(Z : ℚ)| < R := by
      rw [hZS, abs_mul, abs_of_pos hp2]
      exact lt_of_le_of_lt (mul_le_mul_of_nonneg_right hSb hp2.le) (by linarith)
    exact_mod_cast this
  have hdot : dot (tanhCoeffs.map fun c => encZ w f c.1 c.2) [x, p1, p2, p3, p4, p5, p6, p7, p8] = BitVec.ofInt w Z := by
    simp only [dot, tanhCoeffs, List.map_cons, List.map_nil, List.zipWith_cons_cons, List.zipWith_nil_left, List.foldl_cons, List.foldl_nil, ← hk0, ← hk1, ← hk2, ← hk3, ← hk4, ← hk5, ← hk6, ← hk7, ← hk8]
    rw [hZ]
    simp only [BitVec.ofInt_add, BitVec.ofInt_mul, BitVec.ofInt_toInt, zero_add]
  rw [hdot]
  have hti : (BitVec.ofInt w Z).toInt = Z := by
    have := abs_lt.1 hZR
    exact toInt_eq_of hw _ Z rfl (by linarith) (by linarith)
  have hT := val_trunc_exact ht (BitVec.ofInt w Z) (by rw [hti]; exact hZR)
  rw [hti, hZS, mul_div_assoc, div_self hp2.ne', mul_one] at hT
  have hfin : |val f (T f (BitVec.ofInt w Z)) - P| ≤ 230 * η + 9 * u := by
    have := abs_sub_le (val f (T f (BitVec.ofInt w Z))) S P
    linarith
  have hPs : (P : ℝ) = tanhP v := by
    rw [hP, tanhP]
    simp only [tt]
    push_cast
    ring
  rw [← hPs]
  have := (Rat.cast_le (K := ℝ)).2 hfin
  rw [hud] at this
  push_cast at this
  exact this

theorem hasDerivAt_tanh (x : ℝ) : HasDerivAt Real.tanh (1 / Real.cosh x ^ 2) x := by
  have h := (Real.hasDerivAt_sinh x).div (Real.hasDerivAt_cosh x) (Real.cosh_pos x).ne'
  have e : Real.tanh = fun y => Real.sinh y / Real.cosh y := funext Real.tanh_eq_sinh_div_cosh
  have e2 : (Real.cosh x * Real.cosh x - Real.sinh x * Real.sinh x) / Real.cosh x ^ 2 = 1 / Real.cosh x ^ 2 := by
    rw [← sq, ← sq, Real.cosh_sq_sub_sinh_sq]
  rw [e2] at h
  rw [e]
  exact h

theorem tanh_lipschitz (a b : ℝ) : |Real.tanh a - Real.tanh b| ≤ |a - b| := by
  have := Convex.norm_image_sub_le_of_norm_hasDerivWithin_le (f := Real.tanh) (f' := fun x => 1 / Real.cosh x ^ 2) (C := 1) (s := Set.univ) (x := b) (y := a)
    (fun x _ => (hasDerivAt_tanh x).hasDerivWithinAt) (fun x _ => by
      have := Real.one_le_cosh x
      rw [Real.norm_of_nonneg (by positivity)]
      exact div_le_one_of_le₀ (one_le_pow₀ this) (by positivity)) convex_univ (Set.mem_univ _) (Set.mem_univ _)
  simpa using this

theorem tanh_far (x : ℝ) (hx : 5 ≤ x) : 1 - 1 / 10000 ≤ Real.tanh x ∧ Real.tanh x ≤ 1 := by
  have h := tanh_exp x
  have h0 := Real.exp_pos (-(2 * x))
  have h1 : Real.exp (-(2 * x)) ≤ 1 / 20000 := by
    have a : Real.exp (-(2 * x)) ≤ Real.exp (-10) := Real.exp_le_exp.2 (by linarith)
    have b : Real.exp (-10) = (Real.exp 1 ^ 10)⁻¹ := by rw [Real.exp_neg, ← Real.exp_nat_mul]; norm_num
    have c : (20000 : ℝ) ≤ Real.exp 1 ^ 10 :=
      le_trans (by norm_num) (pow_le_pow_left₀ (by norm_num) (by linarith [Real.exp_one_gt_d9] : (2.7 : ℝ) ≤ Real.exp 1) 10)
    rw [b] at a
    exact a.trans (by rw [← one_div]; exact one_div_le_one_div_of_le (by norm_num) c)
  have ht : Real.tanh x = (1 - Real.exp (-(2 * x))) / (1 + Real.exp (-(2 * x))) := by
    rw [eq_div_iff (by positivity)]; exact h
  rw [ht]
  refine ⟨?_, ?_⟩
  · rw [le_div_iff₀ (by positivity)]; linarith
  · rw [div_le_one (by positivity)]; linarith

/-- beyond five the hyperbolic tangent is as good as constant -/
theorem tanh_clamp (x : ℝ) : |Real.tanh (max (-5) (min x 5)) - Real.tanh x| ≤ 1 / 10000 := by
  rcases le_total x 5 with h | h
  · rcases le_total (-5) x with h' | h'
    · rw [min_eq_left h, max_eq_right h', sub_self, abs_zero]; norm_num
    · rw [min_eq_left h, max_eq_left h']
      have a := tanh_far 5 le_rfl
      have b := tanh_far (-x) (by linarith)
      rw [Real.tanh_neg] at b ⊢
      rw [abs_le]; constructor <;> linarith
  · rw [min_eq_right h, max_eq_right (by norm_num)]
    have a := tanh_far 5 le_rfl
    have b := tanh_far x h
    rw [abs_le]; constructor <;> linarith

/-- the bound: the polynomial, the clamp, the truncations and the coefficients -/
def tanhBound (f d : ℕ) : ℚ := 53 / 10000 + 235 * (d / 2 ^ f) + 34 / 2 ^ f

set_option maxHeartbeats 1600000 in
/-- C95: the hyperbolic tangent of a secret, for every argument that the comparisons of the clamp can take. -/
theorem c95_tanh (hw : 0 < w) {f d : ℕ} {R : ℤ} {T : ℕ → BitVec w → BitVec w} (ht : TruncOk f d R (T f)) (hR : R ≤ 2 ^ (w - 1))
    (hf : 8 ≤ f) (hd : 23000 * d ≤ 2 ^ f) (hR8 : 8 * 2 ^ (2 * f) ≤ R) (x : BitVec w) (hx : |x.toInt| + 5 * 2 ^ f < 2 ^ (w - 1)) :
    |(val f (tanh T f x) : ℝ) - Real.tanh (val f x)| ≤ (tanhBound f d : ℚ) := by
  have hp : (0 : ℚ) < 2 ^ f := by positivity
  have hp2 : (0 : ℚ) < 2 ^ (2 * f) := by positivity
  have hpz : (0 : ℤ) < 2 ^ f := by positivity
  have hff : (2 : ℚ) ^ f ≤ 2 ^ (2 * f) := pow_le_pow_right₀ (by norm_num) (by omega)
  have hRq : (R : ℚ) ≤ 2 ^ (w - 1) := by exact_mod_cast hR
  have hR8q : 8 * 2 ^ (2 * f) ≤ (R : ℚ) := by exact_mod_cast hR8
  have hffz : (2 : ℤ) ^ f ≤ 2 ^ (2 * f) := pow_le_pow_right₀ (by norm_num) (by omega)
  have hδ0 : (0 : ℚ) ≤ d / 2 ^ f := by positivity
  have hδ : (d : ℚ) / 2 ^ f ≤ 1 / 23000 := by
    rw [div_le_div_iff₀ hp (by norm_num)]
    have : ((23000 * d : ℕ) : ℚ) ≤ ((2 ^ f : ℕ) : ℚ) := by exact_mod_cast hd
    push_cast at this; linarith
  have hu : (1 : ℚ) / 2 ^ f ≤ 1 / 256 := by
    refine one_div_le_one_div_of_le (by norm_num) ?_
    calc (256 : ℚ) = 2 ^ 8 := by norm_num
      _ ≤ 2 ^ f := pow_le_pow_right₀ (by norm_num) hf
  have hu0 : (0 : ℚ) ≤ 1 / 2 ^ f := by positivity
  -- the clamp
  have v5 : val f (encZ w f 5 0) = 5 := by
    rw [val_encZ_exact hw f 5 0 (Nat.zero_le f) (by norm_num; linarith)]; norm_num
  have vm : val f (encZ w f (-5) 0) = -5 := by
    rw [val_encZ_exact hw f (-5) 0 (Nat.zero_le f) (by norm_num; linarith)]; norm_num
  have i5 : (encZ w f 5 0).toInt = 5 * 2 ^ f := by
    rw [val, div_eq_iff hp.ne'] at v5; exact_mod_cast v5
  have im : (encZ w f (-5) 0).toInt = -(5 * 2 ^ f) := by
    rw [val, div_eq_iff hp.ne'] at vm
    have : ((encZ w f (-5) 0).toInt : ℚ) = ((-(5 * 2 ^ f) : ℤ) : ℚ) := by push_cast; rw [vm]; ring
    exact_mod_cast this
  have hxa := abs_lt.1 (show |x.toInt| < 2 ^ (w - 1) - 5 * 2 ^ f by linarith)
  set c := clamp x (encZ w f (-5) 0) (encZ w f 5 0) with hc
  have hw8 : (8 : ℤ) * 2 ^ f ≤ 2 ^ (w - 1) := by linarith
  have hci : c.toInt = max (-(5 * 2 ^ f)) (min x.toInt (5 * 2 ^ f)) := by
    rw [hc, c37_clamp hw x _ _ (by unfold NoOverflow; rw [im]; omega) (by rw [im, i5]; omega), im, i5]
    omega
  have hcv : val f c = max (-5) (min (val f x) 5) := by
    rw [val, hci, val]
    push_cast
    rw [show (-5 : ℚ) = -(5 * 2 ^ f) / 2 ^ f by field_simp, show (5 : ℚ) = 5 * 2 ^ f / 2 ^ f by field_simp, ← max_div_div_right hp.le, ← min_div_div_right hp.le]
    field_simp
  have hcb : |val f c| ≤ 5 := by
    rw [hcv, abs_le]
    exact ⟨le_max_left _ _, max_le (by norm_num) (min_le_right _ _)⟩
  -- the scaled argument
  obtain ⟨k1, k2⟩ := val_encZ hw f 13421773 26 (by
    have : |(13421773 : ℚ)| * 2 ^ f < 2 ^ (w - 1) * 2 ^ 26 := by norm_num; linarith
    exact_mod_cast this)
  set kw := encZ w f 13421773 26 with hkw
  have k2' : |val f kw| ≤ 13421773 / 2 ^ 26 := k2.trans (by norm_num [abs_of_pos])
  have kc : |val f kw * val f c| ≤ 13421773 / 2 ^ 26 * 5 := by
    rw [abs_mul]; exact mul_le_mul k2' hcb (abs_nonneg _) (by norm_num)
  have hm := val_fmul hw ht hR kw c (lt_of_le_of_lt (mul_le_mul_of_nonneg_right kc hp2.le) (by norm_num; linarith))
  have htanh : tanh T f x = T f (dot (tanhCoeffs.map fun c => encZ w f c.1 c.2) (cheb T f (fmul (T f) kw c) 9)) := rfl
  set n := fmul (T f) kw c with hn
  set η : ℚ := d / 2 ^ f + 2 / 100000000 with hη
  have hnb : |val f n| ≤ 1 + η := by
    have := abs_add_le (val f n - val f kw * val f c) (val f kw * val f c)
    rw [sub_add_cancel] at this
    have kc' := kc.trans (by norm_num : (13421773 / 2 ^ 26 * 5 : ℚ) ≤ 1 + 2 / 100000000)
    linarith
  set v : ℚ := max (-1) (min (val f n) 1) with hv
  have hv1 : |v| ≤ 1 := by
    rw [hv, abs_le]; exact ⟨le_max_left _ _, max_le (by norm_num) (min_le_right _ _)⟩
  have hη0 : 0 ≤ η := by rw [hη]; linarith
  have hnv : |val f n - v| ≤ 1 * η := by
    rw [abs_le] at hnb
    rcases le_total (val f n) 1 with h | h
    · rcases le_total (-1) (val f n) with h' | h'
      · rw [hv, min_eq_left h, max_eq_right h', sub_self, abs_zero]; linarith
      · rw [hv, min_eq_left h, max_eq_left h', abs_le]; constructor <;> linarith
    · rw [hv, min_eq_right h, max_eq_right (by norm_num), abs_le]; constructor <;> linarith
  have hdot := tanh_dot hw ht hR hu hR8 η (by rw [hη]; linarith) (by rw [hη]; linarith) n v hv1 hnv
  rw [← htanh] at hdot
  -- how far the scaled argument is from a fifth
  have h5 : |5 * v - val f c| ≤ 5 * (d / 2 ^ f) + 25 * (1 / 2 ^ f) + 1 / 10000000 := by
    have e1 : |val f kw * val f c - val f c / 5| ≤ (1 / 2 ^ f + 4 / 1000000000) * 5 := by
      rw [show val f kw * val f c - val f c / 5 = (val f kw - 1 / 5) * val f c by ring, abs_mul]
      refine mul_le_mul ?_ hcb (abs_nonneg _) (by linarith)
      have := abs_sub_le (val f kw) (((13421773 : ℤ) : ℚ) / 2 ^ 26) (1 / 5)
      have e : |((13421773 : ℤ) : ℚ) / 2 ^ 26 - 1 / 5| ≤ 4 / 1000000000 := by norm_num [abs_of_pos]
      linarith
    have e2 : |val f n - val f c / 5| ≤ d / 2 ^ f + (1 / 2 ^ f + 4 / 1000000000) * 5 :=
      (abs_sub_le _ (val f kw * val f c) _).trans (add_le_add hm e1)
    have e3 : |v - val f c / 5| ≤ |val f n - val f c / 5| := by
      have hb : -1 ≤ val f c / 5 ∧ val f c / 5 ≤ 1 := by
        rw [abs_le] at hcb; constructor <;> linarith
      rcases le_total (val f n) 1 with h | h
      · rcases le_total (-1) (val f n) with h' | h'
        · rw [hv, min_eq_left h, max_eq_right h']
        · rw [hv, min_eq_left h, max_eq_left h', abs_of_nonpos (by linarith), abs_of_nonpos (by linarith)]; linarith
      · rw [hv, min_eq_right h, max_eq_right (by norm_num), abs_of_nonneg (by linarith), abs_of_nonneg (by linarith)]; linarith
    rw [show 5 * v - val f c = 5 * (v - val f c / 5) by ring, abs_mul, abs_of_pos (by norm_num : (0 : ℚ) < 5)]
    linarith
  have h5r := (Rat.cast_le (K := ℝ)).2 h5
  push_cast at h5r
  have hP := tanhP_close v (by exact_mod_cast hv1)
  have hL := tanh_lipschitz (5 * v) (val f c)
  have hC := tanh_clamp (val f x)
  have hcr : (val f c : ℝ) = max (-5) (min (val f x : ℝ) 5) := by rw [hcv]; push_cast; rfl
  rw [← hcr] at hC
  have t1 := abs_sub_le (val f (tanh T f x) : ℝ) (tanhP v) (Real.tanh (val f x))
  have t2 := abs_sub_le (tanhP v) (Real.tanh (5 * v)) (Real.tanh (val f x))
  have t3 := abs_sub_le (Real.tanh (5 * v)) (Real.tanh (val f c)) (Real.tanh (val f x))
  rw [tanhBound]
  rw [hη] at hdot
  push_cast at hdot ⊢
  have e34 : (34 : ℝ) / 2 ^ f = 34 * (1 / 2 ^ f) := by ring
  rw [e34]
  linarith

/-- with 18 fraction bits in words of 64 bits: the hyperbolic tangents of one and of minus a thousand -/
example : |(val 18 (tanh (fun b (v : BitVec 64) => v.sshiftRight b) 18 (BitVec.ofNat 64 (2 ^ 18))) : ℝ) - Real.tanh 1| ≤ 64 / 10000 ∧
    |(val 18 (tanh (fun b (v : BitVec 64) => v.sshiftRight b) 18 (BitVec.ofInt 64 (-1000 * 2 ^ 18))) : ℝ) - Real.tanh (-1000)| ≤ 64 / 10000 := by
  have hx : (BitVec.ofNat 64 (2 ^ 18)).toInt = 2 ^ 18 := by decide +kernel
  have hy : (BitVec.ofInt 64 (-1000 * 2 ^ 18)).toInt = -1000 * 2 ^ 18 := by decide +kernel
  have vx : val 18 (BitVec.ofNat 64 (2 ^ 18)) = 1 := by rw [val, hx]; norm_num
  have vy : val 18 (BitVec.ofInt 64 (-1000 * 2 ^ 18)) = -1000 := by rw [val, hy]; norm_num
  have h1 := c95_tanh (w := 64) (f := 18) (d := 1) (R := 2 ^ 62) (T := fun b (v : BitVec 64) => v.sshiftRight b) (by norm_num)
    (truncOk_sar 18 _) (by norm_num) (by norm_num) (by norm_num) (by norm_num) (BitVec.ofNat 64 (2 ^ 18)) (by rw [hx]; norm_num)
  have h2 := c95_tanh (w := 64) (f := 18) (d := 1) (R := 2 ^ 62) (T := fun b (v : BitVec 64) => v.sshiftRight b) (by norm_num)
    (truncOk_sar 18 _) (by norm_num) (by norm_num) (by norm_num) (by norm_num) (BitVec.ofInt 64 (-1000 * 2 ^ 18)) (by rw [hy]; norm_num)
  rw [vx] at h1
  rw [vy] at h2
  have b1 : tanhBound 18 1 ≤ 64 / 10000 := by norm_num [tanhBound]
  have c1 := (Rat.cast_le (K := ℝ)).2 b1
  push_cast at h1 h2 c1
  exact ⟨h1.trans c1, h2.trans c1⟩

/-- C95: a large positive number whose difference with minus five leaves the ring gets the value of minus five, and a result can exceed one. -/
theorem c95_range : 0 < (BitVec.ofInt 64 (2 ^ 63 - 2 ^ 18)).toInt ∧
    val 18 (tanh (fun b (v : BitVec 64) => v.sshiftRight b) 18 (BitVec.ofInt 64 (2 ^ 63 - 2 ^ 18))) < -1 ∧
    1 < val 18 (tanh (fun b (v : BitVec 64) => v.sshiftRight b) 18 (BitVec.ofInt 64 (5 * 2 ^ 18))) := by
  have h1 : (tanh (fun b (v : BitVec 64) => v.sshiftRight b) 18 (BitVec.ofInt 64 (2 ^ 63 - 2 ^ 18))).toInt = -262848 := by decide +kernel
  have h2 : (tanh (fun b (v : BitVec 64) => v.sshiftRight b) 18 (BitVec.ofInt 64 (5 * 2 ^ 18))).toInt = 262847 := by decide +kernel
  refine ⟨by decide +kernel, ?_⟩
  rw [val, val, h1, h2]
  norm_num

end Spu.Props

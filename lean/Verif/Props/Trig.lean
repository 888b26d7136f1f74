import Verif.Model.Trig
import Verif.Props.SinPoly
import Verif.Props.Atan2
import Verif.Props.Sqrt
import Verif.Props.Rounding
import Mathlib.Analysis.SpecialFunctions.Trigonometric.Bounds

set_option autoImplicit false

/-! # C94: sine and cosine of a secret -/

namespace Spu.Props
open Spu.Model Spu.Model.HalRing Spu.Model.FxpDiv Spu.Model.PolyApprox Spu.Model.Trig Spu.Spec.FxpDiv Spu.Spec.Rounding

variable {w : ℕ}

theorem val_four (hw : 0 < w) (f : ℕ) (x : BitVec w) (h : |4 * val f x| * 2 ^ f < 2 ^ (w - 1)) : val f (BitVec.ofNat w 4 * x) = 4 * val f x := by
  rw [val_of_eq hw f _ (4 * x.toInt)]
  · push_cast; rw [val]; ring
  · rw [BitVec.ofInt_mul, ← ofInt_self]; rfl
  · push_cast
    rw [← val_mul_pow f x, ← mul_assoc, abs_mul, abs_of_pos (by positivity : (0 : ℚ) < 2 ^ f)]; exact h

/-- the odd Chebyshev polynomials -/
def t3 (v : ℚ) : ℚ := 4 * v ^ 3 - 3 * v
def t5 (v : ℚ) : ℚ := 16 * v ^ 5 - 20 * v ^ 3 + 5 * v
def t7 (v : ℚ) : ℚ := 64 * v ^ 7 - 112 * v ^ 5 + 56 * v ^ 3 - 7 * v
def t9 (v : ℚ) : ℚ := 256 * v ^ 9 - 576 * v ^ 7 + 432 * v ^ 5 - 120 * v ^ 3 + 9 * v

theorem le_one_of_pell {a v u : ℚ} (hv : |v| ≤ 1) (h : a ^ 2 + (1 - v ^ 2) * u ^ 2 = 1) : |a| ≤ 1 := by
  have h1 : 0 ≤ 1 - v ^ 2 := by
    have := (sq_le_one_iff_abs_le_one v).2 hv; linarith
  have := mul_nonneg h1 (sq_nonneg u)
  exact (sq_le_one_iff_abs_le_one a).1 (by linarith)

theorem t_le (v : ℚ) (hv : |v| ≤ 1) : |t3 v| ≤ 1 ∧ |t5 v| ≤ 1 ∧ |t7 v| ≤ 1 ∧ |t9 v| ≤ 1 :=
  ⟨le_one_of_pell (u := 4 * v ^ 2 - 1) hv (by rw [t3]; ring), le_one_of_pell (u := 16 * v ^ 4 - 12 * v ^ 2 + 1) hv (by rw [t5]; ring),
    le_one_of_pell (u := 64 * v ^ 6 - 80 * v ^ 4 + 24 * v ^ 2 - 1) hv (by rw [t7]; ring),
    le_one_of_pell (u := 256 * v ^ 8 - 448 * v ^ 6 + 240 * v ^ 4 - 40 * v ^ 2 + 1) hv (by rw [t9]; ring)⟩

/-- one round of the recurrence -/
theorem cheb_step (hw : 0 < w) {f d : ℕ} {R : ℤ} {T : BitVec w → BitVec w} (ht : TruncOk f d R T) (hR : R ≤ 2 ^ (w - 1))
    (hd : (d : ℚ) / 2 ^ f ≤ 1 / 256) (hR8 : 8 * 2 ^ (2 * f) ≤ R) (yw a b : BitVec w) (Y A B α β : ℚ) (hY : |val f yw - Y| ≤ 4 * (d / 2 ^ f)) (hY2 : |Y| ≤ 2)
    (hA : |A| ≤ 1) (hB : |B| ≤ 1) (ha : |val f a - A| ≤ α) (hb : |val f b - B| ≤ β) (hα : α ≤ 1 / 4) (hβ : β ≤ 1 / 4) :
    |val f (sub (fmul T yw a) b) - (Y * A - B)| ≤ 2 * α + β + 6 * (d / 2 ^ f) := by
  set δ : ℚ := (d : ℚ) / 2 ^ f with hδ
  have hδ0 : 0 ≤ δ := by rw [hδ]; positivity
  have hp : (0 : ℚ) < 2 ^ f := by positivity
  have hp2 : (0 : ℚ) < 2 ^ (2 * f) := by positivity
  have hff : (2 : ℚ) ^ f ≤ 2 ^ (2 * f) := pow_le_pow_right₀ (by norm_num) (by omega)
  have hRq : (R : ℚ) ≤ 2 ^ (w - 1) := by exact_mod_cast hR
  have hR8q : 8 * 2 ^ (2 * f) ≤ (R : ℚ) := by exact_mod_cast hR8
  have by_ : |val f yw| ≤ 202 / 100 := by
    have := abs_add_le (val f yw - Y) Y; rw [sub_add_cancel] at this; linarith
  have ba : |val f a| ≤ 5 / 4 := by
    have := abs_add_le (val f a - A) A; rw [sub_add_cancel] at this; linarith
  have bb : |val f b| ≤ 5 / 4 := by
    have := abs_add_le (val f b - B) B; rw [sub_add_cancel] at this; linarith
  have bya : |val f yw * val f a| ≤ 3 := by
    rw [abs_mul]; exact (mul_le_mul by_ ba (abs_nonneg _) (by norm_num)).trans (by norm_num)
  have hm := val_fmul hw ht hR yw a (by nlinarith)
  set m := fmul T yw a
  have bm : |val f m| ≤ 4 := by
    have := abs_add_le (val f m - val f yw * val f a) (val f yw * val f a); rw [sub_add_cancel] at this; linarith
  have bmb : |val f m - val f b| ≤ 6 := by
    have := abs_sub (val f m) (val f b); linarith
  rw [val_sub hw f _ _ (by nlinarith)]
  have e : val f m - val f b - (Y * A - B) = (val f m - val f yw * val f a) + (val f yw - Y) * val f a + Y * (val f a - A) + -(val f b - B) := by ring
  have e1 : |(val f yw - Y) * val f a| ≤ 4 * δ * (5 / 4) := by
    rw [abs_mul]; exact mul_le_mul hY ba (abs_nonneg _) (by positivity)
  have e2 : |Y * (val f a - A)| ≤ 2 * α := by
    rw [abs_mul]; exact mul_le_mul hY2 ha (abs_nonneg _) (by norm_num)
  rw [e]
  refine (abs_add_le _ _).trans ?_
  rw [abs_neg]
  have := abs_add_three (val f m - val f yw * val f a) ((val f yw - Y) * val f a) (Y * (val f a - A))
  linarith

/-- the five polynomials -/
theorem cheb_five (hw : 0 < w) {f d : ℕ} {R : ℤ} {T : ℕ → BitVec w → BitVec w} (ht : TruncOk f d R (T f)) (hR : R ≤ 2 ^ (w - 1))
    (hd : (d : ℚ) / 2 ^ f ≤ 1 / 256) (hR8 : 8 * 2 ^ (2 * f) ≤ R) (x : BitVec w) (hx : |val f x| ≤ 1) :
    ∃ p1 p2 p3 p4, cheb T f x 5 = [x, p1, p2, p3, p4] ∧ |val f p1 - t3 (val f x)| ≤ 5 * (d / 2 ^ f) ∧ |val f p2 - t5 (val f x)| ≤ 16 * (d / 2 ^ f) ∧
      |val f p3 - t7 (val f x)| ≤ 43 * (d / 2 ^ f) ∧ |val f p4 - t9 (val f x)| ≤ 108 * (d / 2 ^ f) := by
  set δ : ℚ := (d : ℚ) / 2 ^ f with hδ
  have hδ0 : 0 ≤ δ := by rw [hδ]; positivity
  have hp : (0 : ℚ) < 2 ^ f := by positivity
  have hp2 : (0 : ℚ) < 2 ^ (2 * f) := by positivity
  have hff : (2 : ℚ) ^ f ≤ 2 ^ (2 * f) := pow_le_pow_right₀ (by norm_num) (by omega)
  have hRq : (R : ℚ) ≤ 2 ^ (w - 1) := by exact_mod_cast hR
  have hR8q : 8 * 2 ^ (2 * f) ≤ (R : ℚ) := by exact_mod_cast hR8
  set v := val f x with hv
  have hvv : |v * v| ≤ 1 := by rw [abs_mul]; exact mul_le_one₀ hx (abs_nonneg _) hx
  have hv2 : v * v ≤ 1 := (le_abs_self _).trans hvv
  have hv0 : 0 ≤ v * v := mul_self_nonneg v
  have hsq := val_fmul hw ht hR x x (by rw [← hv]; nlinarith)
  rw [← hv, ← hδ] at hsq
  set sq := fmul (T f) x x with hsqd
  have bsq : |val f sq| ≤ 11 / 10 := by
    have := abs_add_le (val f sq - v * v) (v * v); rw [sub_add_cancel] at this; linarith
  have h4 := val_four hw f sq (by rw [abs_mul, abs_of_pos (by norm_num : (0 : ℚ) < 4)]; nlinarith)
  have h2 : val f (encZ w f 2 0) = 2 := by
    rw [val_encZ_exact hw f 2 0 (Nat.zero_le f) (by norm_num; nlinarith)]; norm_num
  have hyw : val f (sub (BitVec.ofNat w 4 * sq) (encZ w f 2 0)) = 4 * val f sq - 2 := by
    have b2 : |4 * val f sq - 2| ≤ 7 := by
      rw [abs_le] at bsq ⊢; constructor <;> linarith
    rw [val_sub hw f _ _ (by rw [h4, h2]; nlinarith), h4, h2]
  set yw := sub (BitVec.ofNat w 4 * sq) (encZ w f 2 0) with hywd
  set Y := 4 * (v * v) - 2 with hYd
  have hY : |val f yw - Y| ≤ 4 * δ := by
    rw [hyw, hYd, show 4 * val f sq - 2 - (4 * (v * v) - 2) = 4 * (val f sq - v * v) by ring, abs_mul, abs_of_pos (by norm_num : (0 : ℚ) < 4)]
    linarith
  have hY2 : |Y| ≤ 2 := by rw [hYd, abs_le]; constructor <;> linarith
  have bY : |val f yw| ≤ 202 / 100 := by
    have := abs_add_le (val f yw - Y) Y; rw [sub_add_cancel] at this; linarith
  have hone : val f (kOne w f) = 1 := val_kOne hw hR (by linarith [(by positivity : (0 : ℤ) < 2 ^ (2 * f))])
  have bz : |val f yw - 1| ≤ 4 := by rw [abs_le] at bY ⊢; constructor <;> linarith
  have hz : val f (sub yw (kOne w f)) = val f yw - 1 := by
    rw [val_sub hw f _ _ (by rw [hone]; nlinarith), hone]
  set z := sub yw (kOne w f) with hzd
  have bxz : |v * val f z| ≤ 4 := by
    rw [abs_mul, hz]; exact (mul_le_mul hx bz (abs_nonneg _) (by norm_num)).trans (by norm_num)
  have hp1 := val_fmul hw ht hR x z (by rw [← hv]; nlinarith)
  rw [← hv, ← hδ] at hp1
  set p1 := fmul (T f) x z with hp1d
  have c1 : |val f p1 - t3 v| ≤ 5 * δ := by
    have e : val f p1 - t3 v = (val f p1 - v * val f z) + v * (val f yw - Y) := by rw [hz, t3, hYd]; ring
    have : |v * (val f yw - Y)| ≤ 4 * δ := by
      rw [abs_mul]
      have := abs_nonneg (val f yw - Y)
      nlinarith
    rw [e]; exact (abs_add_le _ _).trans (by linarith)
  obtain ⟨l3, l5, l7, l9⟩ := t_le v hx
  have c0 : |val f x - v| ≤ 0 := by rw [← hv, sub_self, abs_zero]
  have c2 := cheb_step hw ht hR hd hR8 yw p1 x Y (t3 v) v (5 * δ) 0 hY hY2 l3 hx c1 c0 (by linarith) (by norm_num)
  rw [show Y * t3 v - v = t5 v by rw [hYd, t3, t5]; ring] at c2
  set p2 := sub (fmul (T f) yw p1) x with hp2d
  have c2' : |val f p2 - t5 v| ≤ 16 * δ := by linarith
  have c3 := cheb_step hw ht hR hd hR8 yw p2 p1 Y (t5 v) (t3 v) (16 * δ) (5 * δ) hY hY2 l5 l3 c2' c1 (by linarith) (by linarith)
  rw [show Y * t5 v - t3 v = t7 v by rw [hYd, t3, t5, t7]; ring] at c3
  set p3 := sub (fmul (T f) yw p2) p1 with hp3d
  have c3' : |val f p3 - t7 v| ≤ 43 * δ := by linarith
  have c4 := cheb_step hw ht hR hd hR8 yw p3 p2 Y (t7 v) (t5 v) (43 * δ) (16 * δ) hY hY2 l7 l5 c3' c2' (by linarith) (by linarith)
  rw [show Y * t7 v - t5 v = t9 v by rw [hYd, t5, t7, t9]; ring] at c4
  set p4 := sub (fmul (T f) yw p3) p2 with hp4d
  have c4' : |val f p4 - t9 v| ≤ 108 * δ := by linarith
  refine ⟨p1, p2, p3, p4, ?_, c1, c2', c3', c4'⟩
  simp only [cheb, ← hsqd, ← hywd, ← hzd, ← hp1d]
  simp [chebLoop, ← hp2d, ← hp3d, ← hp4d]

/-- one product of the inner product -/
theorem coefTerm_close {c p C t u e : ℚ} (hc : |c - C| ≤ u) (hcC : |c| ≤ |C|) (hp : |p - t| ≤ e) (ht : |t| ≤ 1) (hu : 0 ≤ u) :
    |c * p - C * t| ≤ u + |C| * e := by
  have e1 : c * p - C * t = (c - C) * t + c * (p - t) := by ring
  have h1 : |(c - C) * t| ≤ u * 1 := by rw [abs_mul]; exact mul_le_mul hc ht (abs_nonneg _) hu
  have h2 : |c * (p - t)| ≤ |C| * e := by rw [abs_mul]; exact mul_le_mul hcC hp (abs_nonneg _) (abs_nonneg _)
  rw [e1]; exact (abs_add_le _ _).trans (by linarith)

set_option maxHeartbeats 1600000 in
/-- the inner product with the coefficients of the sine, truncated -/
theorem sin_dot (hw : 0 < w) {f d : ℕ} {R : ℤ} {T : ℕ → BitVec w → BitVec w} (ht : TruncOk f d R (T f)) (hR : R ≤ 2 ^ (w - 1))
    (hd : (d : ℚ) / 2 ^ f ≤ 1 / 256) (hu : (1 : ℚ) / 2 ^ f ≤ 1 / 256) (hR8 : 8 * 2 ^ (2 * f) ≤ R) (x : BitVec w) (hx : |val f x| ≤ 1) :
    |(val f (T f (dot (sinCoeffs.map fun c => encZ w f c.1 c.2) (cheb T f x 5))) : ℝ) - sinP (val f x)| ≤ 11 * (d / 2 ^ f) + 5 * (1 / 2 ^ f) := by
  obtain ⟨p1, p2, p3, p4, hcheb, q1, q2, q3, q4⟩ := cheb_five hw ht hR hd hR8 x hx
  rw [hcheb]
  set δ : ℚ := (d : ℚ) / 2 ^ f with hδ
  have hδ0 : 0 ≤ δ := by rw [hδ]; positivity
  set u : ℚ := 1 / 2 ^ f with hud
  have hu0 : 0 ≤ u := by rw [hud]; positivity
  have hp : (0 : ℚ) < 2 ^ f := by positivity
  have hp2 : (0 : ℚ) < 2 ^ (2 * f) := by positivity
  have hff : (2 : ℚ) ^ f ≤ 2 ^ (2 * f) := pow_le_pow_right₀ (by norm_num) (by omega)
  have hRq : (R : ℚ) ≤ 2 ^ (w - 1) := by exact_mod_cast hR
  have hR8q : 8 * 2 ^ (2 * f) ≤ (R : ℚ) := by exact_mod_cast hR8
  have enc : ∀ (m : ℤ) (s : ℕ), |(m : ℚ)| / 2 ^ s ≤ 1 → |val f (encZ w f m s) - m / 2 ^ s| ≤ u ∧ |val f (encZ w f m s)| ≤ |(m : ℚ) / 2 ^ s| := by
    intro m s hm
    have hs : (0 : ℚ) < 2 ^ s := by positivity
    rw [div_le_one hs] at hm
    have := val_encZ hw f m s (by
      have : |(m : ℚ)| * 2 ^ f < 2 ^ (w - 1) * 2 ^ s := by
        have h1 : |(m : ℚ)| * 2 ^ f ≤ 2 ^ s * 2 ^ f := mul_le_mul_of_nonneg_right hm hp.le
        nlinarith
      exact_mod_cast this)
    rw [abs_div, abs_of_pos hs]; exact this
  obtain ⟨l3, l5, l7, l9⟩ := t_le (val f x) hx
  have m0 := enc (-10161339) 27 (by norm_num [abs_of_pos, abs_of_neg])
  have m1 := enc (-14314931) 24 (by norm_num [abs_of_pos, abs_of_neg])
  have m2 := enc 4152007 24 (by norm_num [abs_of_pos])
  have m3 := enc (-1825257) 26 (by norm_num [abs_of_pos, abs_of_neg])
  have m4 := enc 7194095 32 (by norm_num [abs_of_pos])
  have c0 : |val f x - val f x| ≤ 0 := by rw [sub_self, abs_zero]
  have r0 := coefTerm_close m0.1 m0.2 c0 hx hu0
  have r1 := coefTerm_close m1.1 m1.2 q1 l3 hu0
  have r2 := coefTerm_close m2.1 m2.2 q2 l5 hu0
  have r3 := coefTerm_close m3.1 m3.2 q3 l7 hu0
  have r4 := coefTerm_close m4.1 m4.2 q4 l9 hu0
  set k0 := encZ w f (-10161339) 27 with hk0
  set k1 := encZ w f (-14314931) 24 with hk1
  set k2 := encZ w f 4152007 24 with hk2
  set k3 := encZ w f (-1825257) 26 with hk3
  set k4 := encZ w f 7194095 32 with hk4
  set S : ℚ := val f k0 * val f x + val f k1 * val f p1 + val f k2 * val f p2 + val f k3 * val f p3 + val f k4 * val f p4 with hS
  set P : ℚ := ((-10161339 : ℤ) : ℚ) / 2 ^ 27 * val f x + ((-14314931 : ℤ) : ℚ) / 2 ^ 24 * t3 (val f x) + ((4152007 : ℤ) : ℚ) / 2 ^ 24 * t5 (val f x) +
    ((-1825257 : ℤ) : ℚ) / 2 ^ 26 * t7 (val f x) + ((7194095 : ℤ) : ℚ) / 2 ^ 32 * t9 (val f x) with hP
  have a0 : |((-10161339 : ℤ) : ℚ) / 2 ^ 27| ≤ 1 / 10 := by norm_num [abs_of_pos, abs_of_neg]
  have a1 : |((-14314931 : ℤ) : ℚ) / 2 ^ 24| ≤ 8533 / 10000 := by norm_num [abs_of_pos, abs_of_neg]
  have a2 : |((4152007 : ℤ) : ℚ) / 2 ^ 24| ≤ 2475 / 10000 := by norm_num [abs_of_pos, abs_of_neg]
  have a3 : |((-1825257 : ℤ) : ℚ) / 2 ^ 26| ≤ 272 / 10000 := by norm_num [abs_of_pos, abs_of_neg]
  have a4 : |((7194095 : ℤ) : ℚ) / 2 ^ 32| ≤ 17 / 10000 := by norm_num [abs_of_pos, abs_of_neg]
  have hSP : |S - P| ≤ 10 * δ + 5 * u := by
    have e : S - P = (val f k0 * val f x - ((-10161339 : ℤ) : ℚ) / 2 ^ 27 * val f x) + (val f k1 * val f p1 - ((-14314931 : ℤ) : ℚ) / 2 ^ 24 * t3 (val f x)) +
        (val f k2 * val f p2 - ((4152007 : ℤ) : ℚ) / 2 ^ 24 * t5 (val f x)) + (val f k3 * val f p3 - ((-1825257 : ℤ) : ℚ) / 2 ^ 26 * t7 (val f x)) +
        (val f k4 * val f p4 - ((7194095 : ℤ) : ℚ) / 2 ^ 32 * t9 (val f x)) := by rw [hS, hP]; ring
    have b1 := mul_le_mul_of_nonneg_right a1 (by linarith : 0 ≤ 5 * δ)
    have b2 := mul_le_mul_of_nonneg_right a2 (by linarith : 0 ≤ 16 * δ)
    have b3 := mul_le_mul_of_nonneg_right a3 (by linarith : 0 ≤ 43 * δ)
    have b4 := mul_le_mul_of_nonneg_right a4 (by linarith : 0 ≤ 108 * δ)
    rw [mul_zero, add_zero] at r0
    rw [e]
    refine (abs_add_le _ _).trans ((add_le_add ((abs_add_le _ _).trans (add_le_add ((abs_add_le _ _).trans (add_le_add ((abs_add_le _ _).trans
      (add_le_add r0 r1)) r2)) r3)) r4).trans ?_)
    linarith
  have hPb : |P| ≤ 2 := by
    have g : ∀ {c t b : ℚ}, |c| ≤ b → |t| ≤ 1 → |c * t| ≤ b := fun {c t b} h1 h2 => by
      rw [abs_mul]
      have := mul_le_mul h1 h2 (abs_nonneg _) ((abs_nonneg _).trans h1)
      linarith
    rw [hP]
    refine (abs_add_le _ _).trans ((add_le_add ((abs_add_le _ _).trans (add_le_add ((abs_add_le _ _).trans (add_le_add ((abs_add_le _ _).trans
      (add_le_add (g a0 hx) (g a1 l3))) (g a2 l5))) (g a3 l7))) (g a4 l9)).trans ?_)
    norm_num
  have hSb : |S| ≤ 3 := by
    have := abs_add_le (S - P) P; rw [sub_add_cancel] at this; linarith
  set Z : ℤ := k0.toInt * x.toInt + k1.toInt * p1.toInt + k2.toInt * p2.toInt + k3.toInt * p3.toInt + k4.toInt * p4.toInt with hZ
  have hZS : (Z : ℚ) = S * 2 ^ (2 * f) := by
    rw [hZ, hS]
    push_cast
    simp only [← val_mul_pow f]
    rw [two_mul, pow_add]; ring
  have hZR : |Z| < R := by
    have : |(Z : ℚ)| < R := by
      rw [hZS, abs_mul, abs_of_pos hp2]
      exact lt_of_le_of_lt (mul_le_mul_of_nonneg_right hSb hp2.le) (by linarith)
    exact_mod_cast this
  have hdot : dot (sinCoeffs.map fun c => encZ w f c.1 c.2) [x, p1, p2, p3, p4] = BitVec.ofInt w Z := by
    simp only [dot, sinCoeffs, List.map_cons, List.map_nil, List.zipWith_cons_cons, List.zipWith_nil_left, List.foldl_cons, List.foldl_nil, ← hk0, ← hk1, ← hk2, ← hk3, ← hk4]
    rw [hZ]
    simp only [BitVec.ofInt_add, BitVec.ofInt_mul, BitVec.ofInt_toInt, zero_add]
  rw [hdot]
  have hti : (BitVec.ofInt w Z).toInt = Z := by
    have := abs_lt.1 hZR
    exact toInt_eq_of hw _ Z rfl (by linarith) (by linarith)
  have hT := val_trunc_exact ht (BitVec.ofInt w Z) (by rw [hti]; exact hZR)
  rw [hti, hZS, mul_div_assoc, div_self hp2.ne', mul_one, ← hδ] at hT
  have hfin : |val f (T f (BitVec.ofInt w Z)) - P| ≤ 11 * δ + 5 * u := by
    have := abs_sub_le (val f (T f (BitVec.ofInt w Z))) S P
    linarith
  have hPs : (P : ℝ) = sinP (val f x) := by
    rw [hP, t3, t5, t7, t9, sinP]
    push_cast
    ring
  rw [← hPs]
  have := (Rat.cast_le (K := ℝ)).2 hfin
  rw [hδ, hud] at this
  push_cast at this
  exact this

theorem fmul_real (hw : 0 < w) {f d : ℕ} {R : ℤ} {T : BitVec w → BitVec w} (ht : TruncOk f d R T) (hR : R ≤ 2 ^ (w - 1)) (x y : BitVec w) (B : ℚ)
    (h : |val f x * val f y| ≤ B) (hB : B * 2 ^ (2 * f) < R) : |(val f (fmul T x y) : ℝ) - val f x * val f y| ≤ d / 2 ^ f := by
  have := val_fmul hw ht hR x y ((mul_le_mul_of_nonneg_right h (by positivity)).trans_lt hB)
  have := (Rat.cast_le (K := ℝ)).2 this
  push_cast at this; exact this

/-- the constants `2π` and `1/(2π)` -/
theorem val_encTwoPi (hw : 0 < w) (f : ℕ) (h : 16 * 2 ^ f ≤ (2 : ℚ) ^ (w - 1)) :
    (|(val f (encZ w f 884279719003555 47) : ℝ) - 2 * Real.pi| ≤ 1 / 2 ^ f + 1 / 1000000000000000 ∧ |val f (encZ w f 884279719003555 47)| ≤ 7) ∧
    (|(val f (encZ w f 5734161139222659 55) : ℝ) - 1 / (2 * Real.pi)| ≤ 1 / 2 ^ f + 1 / 1000000000000000 ∧ |val f (encZ w f 5734161139222659 55)| ≤ 1 / 6) := by
  have hpf : (0 : ℚ) < 2 ^ f := by positivity
  have g := Real.pi_gt_d20
  have l := Real.pi_lt_d20
  have key : ∀ (m : ℤ) (s : ℕ) (c : ℝ) (B : ℚ), |(m : ℚ)| / 2 ^ s ≤ B → B ≤ 8 → |(m : ℝ) / 2 ^ s - c| ≤ 1 / 1000000000000000 →
      |(val f (encZ w f m s) : ℝ) - c| ≤ 1 / 2 ^ f + 1 / 1000000000000000 ∧ |val f (encZ w f m s)| ≤ B := by
    intro m s c B h1 h2 h3
    have hs : (0 : ℚ) < 2 ^ s := by positivity
    obtain ⟨a, b⟩ := val_encZ hw f m s (by
      have h4 := (div_le_iff₀ hs).1 h1
      have : |(m : ℚ)| * 2 ^ f < 2 ^ (w - 1) * 2 ^ s := by
        have h5 : |(m : ℚ)| * 2 ^ f ≤ 8 * 2 ^ s * 2 ^ f := mul_le_mul_of_nonneg_right (by nlinarith) hpf.le
        have h6 : 0 < (2 : ℚ) ^ s * 2 ^ f := by positivity
        have h7 := mul_le_mul_of_nonneg_right h hs.le
        nlinarith
      exact_mod_cast this)
    refine ⟨?_, b.trans h1⟩
    have a' := (Rat.cast_le (K := ℝ)).2 a
    push_cast at a'
    have := abs_sub_le (val f (encZ w f m s) : ℝ) (m / 2 ^ s) c
    linarith
  refine ⟨key _ _ _ 7 (by norm_num [abs_of_pos]) (by norm_num) ?_, key _ _ _ (1 / 6) (by norm_num [abs_of_pos]) (by norm_num) ?_⟩
  · norm_num at g l ⊢
    rw [abs_le]; constructor <;> linarith
  · have hp : (0 : ℝ) < 2 * Real.pi := by positivity
    rw [abs_le]
    constructor
    · rw [neg_le_sub_iff_le_add, div_le_iff₀ hp]
      norm_num at g l ⊢
      nlinarith
    · rw [sub_le_iff_le_add, ← sub_le_iff_le_add', le_div_iff₀ hp]
      norm_num at g l ⊢
      nlinarith

/-- the reduced angle differs from the angle by a multiple of `2π`, almost, and is not much more than `π` in magnitude -/
theorem reduce_close {f : ℕ} (hfw : f < w) {d : ℕ} {R : ℤ} {T : ℕ → BitVec w → BitVec w} (ht : TruncOk f d R (T f)) (hR : R ≤ 2 ^ (w - 1))
    (hd : (d : ℚ) / 2 ^ f ≤ 1 / 256) (hR3 : 4 * 2 ^ (3 * f) ≤ R) (hu : (1 : ℚ) / 2 ^ f ≤ 1 / 256) (x : BitVec w)
    (hx : (|val f x| + 4) * (1 / 2 ^ f + 1 / 1000000000000000) ≤ 1 / 64) :
    ∃ n : ℤ, |(val f (reduce T f x) : ℝ) - (val f x - n * (2 * Real.pi))| ≤ d / 2 ^ f + (|(val f x : ℝ)| + 4) * (1 / 2 ^ f + 1 / 1000000000000000) ∧
      |(val f (reduce T f x) : ℝ)| ≤ 34 / 10 := by
  have hw : 0 < w := by omega
  set δ : ℝ := (d : ℝ) / 2 ^ f with hδ
  have hδ0 : 0 ≤ δ := by rw [hδ]; positivity
  have hδ1 : δ ≤ 1 / 256 := by
    have := (Rat.cast_le (K := ℝ)).2 hd; push_cast at this; exact this
  set uq : ℚ := 1 / 2 ^ f + 1 / 1000000000000000 with huq
  set u : ℝ := 1 / 2 ^ f + 1 / 1000000000000000 with hu'
  have hu0 : 0 < u := by rw [hu']; positivity
  have hcast : ((uq : ℚ) : ℝ) = u := by rw [huq, hu']; push_cast; ring
  set N : ℝ := |(val f x : ℝ)| + 4 with hN
  have hN4 : 4 ≤ N := by rw [hN]; linarith [abs_nonneg (val f x : ℝ)]
  have hNu : N * u ≤ 1 / 64 := by
    have := (Rat.cast_le (K := ℝ)).2 hx
    push_cast at this
    rw [hcast] at this
    exact this
  -- magnitudes
  have hpf : (0 : ℚ) < 2 ^ f := by positivity
  have hp2 : (0 : ℚ) < 2 ^ (2 * f) := by positivity
  have hRq : (R : ℚ) ≤ 2 ^ (w - 1) := by exact_mod_cast hR
  have hR3q : 4 * 2 ^ (3 * f) ≤ (R : ℚ) := by exact_mod_cast hR3
  have h3f : (2 : ℚ) ^ (3 * f) = 2 ^ f * 2 ^ (2 * f) := by rw [← pow_add]; congr 1; omega
  have h2f : (2 : ℚ) ^ (2 * f) = 2 ^ f * 2 ^ f := by rw [← pow_add]; congr 1; omega
  have h256 : (256 : ℚ) ≤ 2 ^ f := by
    rw [div_le_div_iff₀ hpf (by norm_num)] at hu; linarith
  have h2R : 1024 * 2 ^ (2 * f) ≤ (R : ℚ) := by rw [h3f] at hR3q; nlinarith
  have h16 : 16 * 2 ^ f ≤ (2 : ℚ) ^ (w - 1) := by rw [h2f] at h2R; nlinarith
  have hNf : (|val f x| + 4) * 64 ≤ 2 ^ f := by
    have h1 : (|val f x| + 4) * (1 / 2 ^ f) ≤ 1 / 64 := by
      refine le_trans (mul_le_mul_of_nonneg_left ?_ (by positivity)) hx
      rw [huq]; linarith [(by norm_num : (0 : ℚ) < 1 / 1000000000000000)]
    rw [mul_one_div, div_le_iff₀ hpf] at h1
    linarith
  have ovf : ∀ B : ℚ, B ≤ 64 * (|val f x| + 4) → B * 2 ^ (2 * f) < R ∧ B * 2 ^ f < 2 ^ (w - 1) := by
    intro B hB
    have h1 : B * 2 ^ (2 * f) ≤ 2 ^ f * 2 ^ (2 * f) := mul_le_mul_of_nonneg_right (by linarith) hp2.le
    have h2 : (0 : ℚ) < 2 ^ f * 2 ^ (2 * f) := by positivity
    have h3 : B * 2 ^ f ≤ 2 ^ f * 2 ^ f := mul_le_mul_of_nonneg_right (by linarith) hpf.le
    rw [h3f] at hR3q
    exact ⟨by linarith, by linarith⟩
  obtain ⟨a1, b1⟩ := val_encPi hw f 48 Real.pi (Or.inl ⟨rfl, rfl⟩) h16
  obtain ⟨⟨a2, b2⟩, a3, b3⟩ := val_encTwoPi hw f h16
  rw [← hu'] at a1 a2 a3
  set kpi := encZ w f 884279719003555 48 with hkpi
  set k2pi := encZ w f 884279719003555 47 with hk2pi
  set kinv := encZ w f 5734161139222659 55 with hkinv
  have hX0 := abs_nonneg (val f x)
  have s1b : |val f x + val f kpi| ≤ |val f x| + 4 := (abs_add_le _ _).trans (by linarith)
  have hs1 : val f (x + kpi) = val f x + val f kpi := val_add hw f _ _ (lt_of_le_of_lt (mul_le_mul_of_nonneg_right s1b hpf.le) (ovf _ (by linarith)).2)
  have sab : |val f (x + kpi) * val f kinv| ≤ (|val f x| + 4) * (1 / 6) := by
    rw [abs_mul, hs1]; exact mul_le_mul s1b b3 (abs_nonneg _) (by positivity)
  have ha := fmul_real hw ht hR (x + kpi) kinv _ sab (ovf _ (by linarith)).1
  set a := fmul (T f) (x + kpi) kinv with had
  rw [← hδ, hs1] at ha
  have hpi3 := Real.pi_gt_three
  have hpi4 := Real.pi_lt_d2
  have hpi0 : (0 : ℝ) < 2 * Real.pi := by linarith
  have s1r : |((val f x + val f kpi : ℚ) : ℝ)| ≤ N := by
    have := (Rat.cast_le (K := ℝ)).2 s1b; push_cast at this ⊢; rw [hN]; exact this
  have hinv : 1 / (2 * Real.pi) ≤ 1 / 6 := one_div_le_one_div_of_le (by norm_num) (by linarith)
  have hinv0 : 0 < 1 / (2 * Real.pi) := by positivity
  have ea : |(val f a : ℝ) - ((val f x : ℝ) + Real.pi) * (1 / (2 * Real.pi))| ≤ δ + N * u + u := by
    have e : (val f a : ℝ) - ((val f x : ℝ) + Real.pi) * (1 / (2 * Real.pi)) = ((val f a : ℝ) - ((val f x + val f kpi : ℚ) : ℝ) * val f kinv) +
        ((val f x + val f kpi : ℚ) : ℝ) * ((val f kinv : ℝ) - 1 / (2 * Real.pi)) + ((val f kpi : ℝ) - Real.pi) * (1 / (2 * Real.pi)) := by
      push_cast; ring
    have e1 : |((val f x + val f kpi : ℚ) : ℝ) * ((val f kinv : ℝ) - 1 / (2 * Real.pi))| ≤ N * u := by
      rw [abs_mul]; exact mul_le_mul s1r a3 (abs_nonneg _) (by linarith)
    have e2 : |((val f kpi : ℝ) - Real.pi) * (1 / (2 * Real.pi))| ≤ u := by
      rw [abs_mul, abs_of_pos hinv0]
      have := mul_le_mul a1 hinv hinv0.le hu0.le
      linarith
    rw [e]
    exact (abs_add_three _ _ _).trans (by linarith)
  have hfl : val f (Rounding.floor f a) = ⌊val f a⌋ := c72_floor f hfw a
  set n : ℤ := ⌊val f a⌋ with hn
  have hn1 : (n : ℝ) ≤ val f a := by exact_mod_cast Int.floor_le (val f a)
  have hn2 : (val f a : ℝ) < n + 1 := by exact_mod_cast Int.lt_floor_add_one (val f a)
  have hab : |(val f a : ℝ)| ≤ N / 6 + 1 / 256 := by
    have h1 : |((val f x + val f kpi : ℚ) : ℝ) * val f kinv| ≤ N * (1 / 6) := by
      rw [abs_mul]
      refine mul_le_mul s1r ?_ (abs_nonneg _) (by linarith)
      have := (Rat.cast_le (K := ℝ)).2 b3; push_cast at this; exact this
    have := abs_add_le ((val f a : ℝ) - ((val f x + val f kpi : ℚ) : ℝ) * val f kinv) (((val f x + val f kpi : ℚ) : ℝ) * val f kinv)
    rw [sub_add_cancel] at this
    linarith
  have hnb : |(n : ℝ)| ≤ N := by
    rw [abs_le] at hab ⊢; constructor <;> linarith
  have hnq : |(n : ℚ)| ≤ |val f x| + 4 := by
    rw [hN] at hnb
    have : ((|(n : ℚ)| : ℚ) : ℝ) ≤ ((|val f x| + 4 : ℚ) : ℝ) := by push_cast; exact hnb
    exact Rat.cast_le.1 this
  have sbb : |val f (Rounding.floor f a) * val f k2pi| ≤ (|val f x| + 4) * 7 := by
    rw [abs_mul, hfl]; exact mul_le_mul hnq b2 (abs_nonneg _) (by positivity)
  have hb := fmul_real hw ht hR (Rounding.floor f a) k2pi _ sbb (ovf _ (by linarith)).1
  set b := fmul (T f) (Rounding.floor f a) k2pi with hbd
  rw [← hδ, hfl] at hb
  push_cast at hb
  have eb : |(val f b : ℝ) - n * (2 * Real.pi)| ≤ δ + N * u := by
    have e : (val f b : ℝ) - n * (2 * Real.pi) = ((val f b : ℝ) - n * val f k2pi) + n * ((val f k2pi : ℝ) - 2 * Real.pi) := by ring
    have e1 : |(n : ℝ) * ((val f k2pi : ℝ) - 2 * Real.pi)| ≤ N * u := by
      rw [abs_mul]; exact mul_le_mul hnb a2 (abs_nonneg _) (by linarith)
    rw [e]; exact (abs_add_le _ _).trans (by linarith)
  have hbq : |val f b| ≤ 8 * (|val f x| + 4) := by
    have h1 : |(n : ℝ) * (2 * Real.pi)| ≤ N * (7 : ℝ) := by
      rw [abs_mul, abs_of_pos hpi0]; exact mul_le_mul hnb (by linarith) hpi0.le (by linarith)
    have h2 := abs_add_le ((val f b : ℝ) - n * (2 * Real.pi)) (n * (2 * Real.pi))
    rw [sub_add_cancel] at h2
    have : ((|val f b| : ℚ) : ℝ) ≤ ((8 * (|val f x| + 4) : ℚ) : ℝ) := by push_cast; rw [← hN]; linarith
    exact Rat.cast_le.1 this
  have hr : val f (reduce T f x) = val f x - val f b := by
    have h1 : |val f x - val f b| ≤ 9 * (|val f x| + 4) := (abs_sub _ _).trans (by linarith)
    exact val_sub hw f x b (lt_of_le_of_lt (mul_le_mul_of_nonneg_right h1 hpf.le) (ovf _ (by linarith)).2)
  have e2 : |(val f (reduce T f x) : ℝ) - (val f x - n * (2 * Real.pi))| ≤ δ + N * u := by
    rw [hr, ← abs_neg]
    push_cast
    rw [show -((val f x : ℝ) - val f b - (val f x - n * (2 * Real.pi))) = (val f b : ℝ) - n * (2 * Real.pi) by ring]
    exact eb
  refine ⟨n, e2, ?_⟩
  -- the range
  have eN : u ≤ N * u / 4 := by nlinarith
  have hη : δ + N * u + u ≤ 3 / 128 := by linarith
  have er : ((val f x : ℝ) + Real.pi) * (1 / (2 * Real.pi)) * (2 * Real.pi) = (val f x : ℝ) + Real.pi := by field_simp
  rw [abs_le] at ea
  have lo : (n : ℝ) - 3 / 128 ≤ ((val f x : ℝ) + Real.pi) * (1 / (2 * Real.pi)) := by linarith
  have hi : ((val f x : ℝ) + Real.pi) * (1 / (2 * Real.pi)) ≤ n + 1 + 3 / 128 := by linarith
  have lo' := mul_le_mul_of_nonneg_right lo hpi0.le
  have hi' := mul_le_mul_of_nonneg_right hi hpi0.le
  rw [er] at lo' hi'
  rw [abs_le] at e2 ⊢
  constructor <;> linarith

/-- the bound for the sine of angles below `X` in magnitude -/
def sinBound (f d : ℕ) (X : ℚ) : ℚ := 126 / 1000000 + 16 * (d / 2 ^ f) + 19 * (1 / 2 ^ f) + (X + 4) * (1 / 2 ^ f + 1 / 1000000000000000)

/-- C94: the sine of every secret angle that is not too large, for every truncation with a bounded error. -/
theorem c94_sine {f : ℕ} (hf8 : 8 ≤ f) (hfw : f < w) {d : ℕ} {R : ℤ} {T : ℕ → BitVec w → BitVec w} (ht : TruncOk f d R (T f)) (hR : R ≤ 2 ^ (w - 1))
    (hd : (d : ℚ) / 2 ^ f ≤ 1 / 256) (hR3 : 4 * 2 ^ (3 * f) ≤ R) (x : BitVec w)
    (hx : (|val f x| + 4) * (1 / 2 ^ f + 1 / 1000000000000000) ≤ 1 / 64) :
    |(val f (sine T f x) : ℝ) - Real.sin (val f x)| ≤ sinBound f d |val f x| := by
  have hw : 0 < w := by omega
  have hpf : (0 : ℚ) < 2 ^ f := by positivity
  have hp2 : (0 : ℚ) < 2 ^ (2 * f) := by positivity
  have h256 : (256 : ℚ) ≤ 2 ^ f := by
    calc (256 : ℚ) = 2 ^ 8 := by norm_num
      _ ≤ 2 ^ f := pow_le_pow_right₀ (by norm_num) hf8
  have hu : (1 : ℚ) / 2 ^ f ≤ 1 / 256 := one_div_le_one_div_of_le (by norm_num) h256
  have hRq : (R : ℚ) ≤ 2 ^ (w - 1) := by exact_mod_cast hR
  have hR3q : 4 * 2 ^ (3 * f) ≤ (R : ℚ) := by exact_mod_cast hR3
  have h3f : (2 : ℚ) ^ (3 * f) = 2 ^ f * 2 ^ (2 * f) := by rw [← pow_add]; congr 1; omega
  have hff : (2 : ℚ) ^ f ≤ 2 ^ (2 * f) := pow_le_pow_right₀ (by norm_num) (by omega)
  have h2R : 1024 * 2 ^ (2 * f) ≤ (R : ℚ) := by rw [h3f] at hR3q; nlinarith
  have hR8 : 8 * 2 ^ (2 * f) ≤ R := by
    have : (8 * 2 ^ (2 * f) : ℚ) ≤ R := by linarith
    exact_mod_cast this
  obtain ⟨n, hc, hb⟩ := reduce_close hfw ht hR hd hR3 hu x hx
  set r := reduce T f x with hr
  obtain ⟨k1, k2⟩ := val_encZ hw f 4272283 24 (by
    have : |(4272283 : ℚ)| * 2 ^ f < 2 ^ (w - 1) * 2 ^ 24 := by norm_num; nlinarith
    exact_mod_cast this)
  set kw := encZ w f 4272283 24 with hkw
  have k2' : |val f kw| ≤ 26 / 100 := k2.trans (by norm_num [abs_of_pos])
  have hbq : |val f r| ≤ 34 / 10 := by
    have : ((|val f r| : ℚ) : ℝ) ≤ ((34 / 10 : ℚ) : ℝ) := by push_cast; exact hb
    exact Rat.cast_le.1 this
  have kb : |val f kw * val f r| ≤ 1 := by
    rw [abs_mul]; exact (mul_le_mul k2' hbq (abs_nonneg _) (by norm_num)).trans (by norm_num)
  have hv := fmul_real hw ht hR kw r 1 kb (by linarith)
  have hvq := val_fmul hw ht hR kw r (by nlinarith)
  set v := fmul (T f) kw r with hvd
  have hv1 : |val f v| ≤ 1 := by
    have h1 : |val f kw * val f r| ≤ 26 / 100 * (34 / 10) := by
      rw [abs_mul]; exact mul_le_mul k2' hbq (abs_nonneg _) (by norm_num)
    have := abs_add_le (val f v - val f kw * val f r) (val f kw * val f r)
    rw [sub_add_cancel] at this
    linarith
  have hs := sin_dot hw ht hR hd hu hR8 v hv1
  have hv1r : |(val f v : ℝ)| ≤ 1 := by
    have := (Rat.cast_le (K := ℝ)).2 hv1; push_cast at this; exact this
  have hp := sinP_close (val f v) hv1r
  have k1r : |(val f kw : ℝ) - 4272283 / 2 ^ 24| ≤ 1 / 2 ^ f := by
    have := (Rat.cast_le (K := ℝ)).2 k1; push_cast at this; exact this
  set δ : ℝ := (d : ℝ) / 2 ^ f with hδ
  set u : ℝ := 1 / 2 ^ f with hu'
  have hu0 : 0 < u := by rw [hu']; positivity
  have hδ0 : 0 ≤ δ := by rw [hδ]; positivity
  have hsc : |16777216 / 4272283 * (val f v : ℝ) - val f r| ≤ 4 * δ + 14 * u := by
    have e : 16777216 / 4272283 * (val f v : ℝ) - val f r = 16777216 / 4272283 * (((val f v : ℝ) - val f kw * val f r) + ((val f kw : ℝ) - 4272283 / 2 ^ 24) * val f r) := by
      ring
    have e1 : |((val f kw : ℝ) - 4272283 / 2 ^ 24) * val f r| ≤ u * (34 / 10) := by
      rw [abs_mul]; exact mul_le_mul k1r hb (abs_nonneg _) hu0.le
    rw [e, abs_mul, abs_of_pos (by norm_num : (0 : ℝ) < 16777216 / 4272283)]
    have e2 := abs_add_le ((val f v : ℝ) - val f kw * val f r) (((val f kw : ℝ) - 4272283 / 2 ^ 24) * val f r)
    have e3 : |((val f v : ℝ) - val f kw * val f r) + ((val f kw : ℝ) - 4272283 / 2 ^ 24) * val f r| ≤ δ + 34 / 10 * u := by linarith
    have e4 := mul_le_mul_of_nonneg_left e3 (by norm_num : (0 : ℝ) ≤ 16777216 / 4272283)
    linarith
  have q1 := (Real.abs_sin_sub_sin_le (16777216 / 4272283 * (val f v : ℝ)) (val f r)).trans hsc
  have q2 := (Real.abs_sin_sub_sin_le (val f r) ((val f x : ℝ) - n * (2 * Real.pi))).trans hc
  rw [Real.sin_sub_int_mul_two_pi] at q2
  have hout : sine T f x = T f (dot (sinCoeffs.map fun c => encZ w f c.1 c.2) (cheb T f v 5)) := rfl
  rw [hout, sinBound]
  push_cast
  rw [← hδ, ← hu']
  set s := val f (T f (dot (sinCoeffs.map fun c => encZ w f c.1 c.2) (cheb T f v 5)))
  have t1 := abs_sub_le (s : ℝ) (sinP (val f v)) (Real.sin (16777216 / 4272283 * (val f v : ℝ)))
  have t2 := abs_sub_le (s : ℝ) (Real.sin (16777216 / 4272283 * (val f v : ℝ))) (Real.sin (val f r))
  have t3 := abs_sub_le (s : ℝ) (Real.sin (val f r)) (Real.sin (val f x))
  linarith

/-- C94: the cosine. -/
theorem c94_cosine {f : ℕ} (hf8 : 8 ≤ f) (hfw : f < w) {d : ℕ} {R : ℤ} {T : ℕ → BitVec w → BitVec w} (ht : TruncOk f d R (T f)) (hR : R ≤ 2 ^ (w - 1))
    (hd : (d : ℚ) / 2 ^ f ≤ 1 / 256) (hR3 : 4 * 2 ^ (3 * f) ≤ R) (x : BitVec w)
    (hx : (|val f x| + 8) * (1 / 2 ^ f + 1 / 1000000000000000) ≤ 1 / 64) :
    |(val f (cosine T f x) : ℝ) - Real.cos (val f x)| ≤ sinBound f d (|val f x| + 5) := by
  have hw : 0 < w := by omega
  have hpf : (0 : ℚ) < 2 ^ f := by positivity
  have hu0 : (0 : ℚ) < 1 / 2 ^ f + 1 / 1000000000000000 := by positivity
  have h256 : (256 : ℚ) ≤ 2 ^ f := by
    calc (256 : ℚ) = 2 ^ 8 := by norm_num
      _ ≤ 2 ^ f := pow_le_pow_right₀ (by norm_num) hf8
  have hRq : (R : ℚ) ≤ 2 ^ (w - 1) := by exact_mod_cast hR
  have hR3q : 4 * 2 ^ (3 * f) ≤ (R : ℚ) := by exact_mod_cast hR3
  have h3f : (2 : ℚ) ^ (3 * f) = 2 ^ f * (2 ^ f * 2 ^ f) := by rw [← pow_add, ← pow_add]; congr 1; omega
  have hff : 256 * 2 ^ f ≤ (2 : ℚ) ^ f * 2 ^ f := mul_le_mul_of_nonneg_right h256 hpf.le
  have h2R : 1024 * (2 ^ f * 2 ^ f) ≤ (2 : ℚ) ^ (w - 1) := by
    rw [h3f] at hR3q
    have := mul_le_mul_of_nonneg_right h256 (by positivity : (0 : ℚ) ≤ 2 ^ f * 2 ^ f)
    linarith
  have h16 : 16 * 2 ^ f ≤ (2 : ℚ) ^ (w - 1) := by linarith
  obtain ⟨a1, b1⟩ := val_encPi hw f 49 (Real.pi / 2) (Or.inr ⟨rfl, rfl⟩) h16
  set k := encZ w f 884279719003555 49 with hk
  have hX0 := abs_nonneg (val f x)
  have hNf : (|val f x| + 8) * 64 ≤ 2 ^ f := by
    have h1 : (|val f x| + 8) * (1 / 2 ^ f) ≤ 1 / 64 := by
      refine le_trans (mul_le_mul_of_nonneg_left ?_ (by positivity)) hx
      linarith [(by norm_num : (0 : ℚ) < 1 / 1000000000000000)]
    rw [mul_one_div, div_le_iff₀ hpf] at h1
    linarith
  have hb : |val f k - val f x| ≤ |val f x| + 4 := (abs_sub _ _).trans (by linarith)
  have hs : val f (sub k x) = val f k - val f x := val_sub hw f _ _ (by
    have h1 : |val f k - val f x| * 2 ^ f ≤ 2 ^ f * 2 ^ f := mul_le_mul_of_nonneg_right (by linarith) hpf.le
    linarith [(by positivity : (0 : ℚ) < 2 ^ f * 2 ^ f)])
  have h := c94_sine hf8 hfw ht hR hd hR3 (sub k x) (by
    rw [hs]
    exact le_trans (mul_le_mul_of_nonneg_right (by linarith) hu0.le) hx)
  have q := Real.abs_sin_sub_sin_le (val f (sub k x)) (Real.pi / 2 - val f x)
  rw [Real.sin_pi_div_two_sub, hs] at q
  push_cast at q
  rw [sub_sub_sub_cancel_right] at q
  have hm : sinBound f d |val f (sub k x)| + (1 / 2 ^ f + 1 / 1000000000000000) ≤ sinBound f d (|val f x| + 5) := by
    rw [sinBound, sinBound, hs]
    have := mul_le_mul_of_nonneg_right hb hu0.le
    linarith
  have hm' := (Rat.cast_le (K := ℝ)).2 hm
  rw [Rat.cast_add] at hm'
  push_cast at hm'
  have t := abs_sub_le (val f (sine T f (sub k x)) : ℝ) (Real.sin (val f (sub k x))) (Real.cos (val f x))
  rw [hs] at t h
  push_cast at t h
  rw [cosine]
  rw [hs] at hm'
  linarith

/-- with 18 fraction bits in words of 64 bits: the sine and the cosine of two -/
example : |(val 18 (sine (fun b (v : BitVec 64) => v.sshiftRight b) 18 (BitVec.ofNat 64 (2 ^ 19))) : ℝ) - Real.sin 2| ≤ 3 / 10000 ∧
    |(val 18 (cosine (fun b (v : BitVec 64) => v.sshiftRight b) 18 (BitVec.ofNat 64 (2 ^ 19))) : ℝ) - Real.cos 2| ≤ 4 / 10000 := by
  have hx : (BitVec.ofNat 64 (2 ^ 19)).toInt = 2 ^ 19 := by decide +kernel
  have vx : val 18 (BitVec.ofNat 64 (2 ^ 19)) = 2 := by rw [val, hx]; norm_num
  have h1 := c94_sine (w := 64) (f := 18) (d := 1) (R := 2 ^ 62) (T := fun b (v : BitVec 64) => v.sshiftRight b) (by norm_num) (by norm_num)
    (truncOk_sar 18 _) (by norm_num) (by norm_num) (by norm_num) (BitVec.ofNat 64 (2 ^ 19)) (by rw [vx]; norm_num [abs_of_pos])
  have h2 := c94_cosine (w := 64) (f := 18) (d := 1) (R := 2 ^ 62) (T := fun b (v : BitVec 64) => v.sshiftRight b) (by norm_num) (by norm_num)
    (truncOk_sar 18 _) (by norm_num) (by norm_num) (by norm_num) (BitVec.ofNat 64 (2 ^ 19)) (by rw [vx]; norm_num [abs_of_pos])
  rw [vx] at h1 h2
  have b1 : sinBound 18 1 |(2 : ℚ)| ≤ 3 / 10000 := by norm_num [sinBound, abs_of_pos]
  have b2 : sinBound 18 1 (|(2 : ℚ)| + 5) ≤ 4 / 10000 := by norm_num [sinBound, abs_of_pos]
  have c1 := (Rat.cast_le (K := ℝ)).2 b1
  have c2 := (Rat.cast_le (K := ℝ)).2 b2
  push_cast at h1 h2 c1 c2
  exact ⟨h1.trans c1, h2.trans c2⟩

/-- C94: large angles are not reduced to `[-π, π]`: the sine of 355000 is more than three, that of `2^20` more than ten thousand. -/
theorem c94_range : 3 < val 18 (sine (fun b (v : BitVec 64) => v.sshiftRight b) 18 (BitVec.ofNat 64 (355000 * 2 ^ 18))) ∧
    12000 < val 18 (sine (fun b (v : BitVec 64) => v.sshiftRight b) 18 (BitVec.ofNat 64 (2 ^ 20 * 2 ^ 18))) := by
  have h1 : (sine (fun b (v : BitVec 64) => v.sshiftRight b) 18 (BitVec.ofNat 64 (355000 * 2 ^ 18))).toInt = 952745 := by decide +kernel
  have h2 : (sine (fun b (v : BitVec 64) => v.sshiftRight b) 18 (BitVec.ofNat 64 (2 ^ 20 * 2 ^ 18))).toInt = 3263443386 := by decide +kernel
  rw [val, val, h1, h2]
  norm_num

end Spu.Props

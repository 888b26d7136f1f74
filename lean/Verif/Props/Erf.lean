import Verif.Model.Erf
import Verif.Props.Sqrt

set_option autoImplicit false

/-! # C96: error function of a secret -/

namespace Spu.Props
open Spu.Model Spu.Model.HalRing Spu.Model.FxpDiv Spu.Model.PolyApprox Spu.Model.Erf Spu.Spec.FxpDiv Spu.Spec.Rounding

variable {w : ℕ}

/-- the polynomial of equation 7.1.27 of the Handbook of Mathematical Functions -/
def handbookP (x : ℚ) : ℚ := 1 + 0.278393 * x + 0.230389 * x ^ 2 + 0.000972 * x ^ 3 + 0.078108 * x ^ 4

/-- equation 7.1.27, for numbers that are not negative -/
def handbookErf (x : ℚ) : ℚ := 1 - 1 / handbookP x ^ 4

/-- extended as an odd function, one from three on -/
def erfSpec (x : ℚ) : ℚ := if x < 0 then -(if |x| < 3 then handbookErf |x| else 1) else if |x| < 3 then handbookErf |x| else 1

theorem handbookP_bounds {x : ℚ} (h0 : 0 ≤ x) (h3 : x ≤ 3) : 1 ≤ handbookP x ∧ handbookP x ≤ 10262 / 1000 ∧
    x + x ^ 2 + x ^ 3 + x ^ 4 ≤ 23 / 10 * handbookP x ^ 3 := by
  have p2 := pow_le_pow_left₀ h0 h3 2
  have p3 := pow_le_pow_left₀ h0 h3 3
  have p4 := pow_le_pow_left₀ h0 h3 4
  have q : ∀ k, 0 ≤ x ^ k := fun k => pow_nonneg h0 k
  have m : 0 ≤ x ^ 2 * (3 - x) := mul_nonneg (q 2) (by linarith)
  refine ⟨?_, ?_, ?_⟩
  · rw [handbookP]; linarith [q 2, q 3, q 4]
  · rw [handbookP]; norm_num at p2 p3 p4 ⊢; linarith
  · rw [handbookP]
    linarith [q 2, q 3, q 4, q 5, q 6, q 7, q 8, q 9, q 10, q 11, q 12]

set_option maxHeartbeats 1600000 in
/-- the polynomial, with encoded coefficients and truncated powers -/
theorem erf_poly (hw : 0 < w) {f d : ℕ} {R : ℤ} {T : ℕ → BitVec w → BitVec w} (ht : TruncOk f d R (T f)) (hR : R ≤ 2 ^ (w - 1))
    (hd : (d : ℚ) / 2 ^ f ≤ 1 / 2000) (hu : (1 : ℚ) / 2 ^ f ≤ 1 / 4096) (hRb : 16384 * 2 ^ (2 * f) ≤ R) (x : BitVec w) (h0 : 0 ≤ val f x) (h3 : val f x ≤ 3) :
    ∃ r, polynomial T f x (erfCoeffs.map fun c => encZ w f c.1 c.2) = some r ∧
      |val f r - handbookP (val f x)| ≤ handbookP (val f x) ^ 3 * (5 * (d / 2 ^ f) + 23 / 10 * (1 / 2 ^ f + 3 / 1000000000)) ∧
      |val f r - handbookP (val f x)| ≤ 1 / 10 := by
  set δ : ℚ := (d : ℚ) / 2 ^ f with hδ
  have hδ0 : 0 ≤ δ := by rw [hδ]; positivity
  set u : ℚ := 1 / 2 ^ f with hud
  have hu0 : 0 ≤ u := by rw [hud]; positivity
  have hp : (0 : ℚ) < 2 ^ f := by positivity
  have hp2 : (0 : ℚ) < 2 ^ (2 * f) := by positivity
  have hff : (2 : ℚ) ^ f ≤ 2 ^ (2 * f) := pow_le_pow_right₀ (by norm_num) (by omega)
  have hRq : (R : ℚ) ≤ 2 ^ (w - 1) := by exact_mod_cast hR
  have hRbq : 16384 * 2 ^ (2 * f) ≤ (R : ℚ) := by exact_mod_cast hRb
  set X := val f x with hX
  set M : ℚ := max 1 X with hM
  have hM1 : 1 ≤ M := le_max_left _ _
  have hM3 : M ≤ 3 := max_le (by norm_num) h3
  have hM0 : 0 ≤ M := by linarith
  have enc : ∀ (m : ℤ) (s : ℕ), |(m : ℚ)| / 2 ^ s ≤ 2 → |val f (encZ w f m s) - m / 2 ^ s| ≤ u ∧ |val f (encZ w f m s)| ≤ |(m : ℚ)| / 2 ^ s := by
    intro m s hm
    have hs : (0 : ℚ) < 2 ^ s := by positivity
    rw [div_le_iff₀ hs] at hm
    exact val_encZ hw f m s (by
      have : |(m : ℚ)| * 2 ^ f < 2 ^ (w - 1) * 2 ^ s := by
        have h1 : |(m : ℚ)| * 2 ^ f ≤ 2 * 2 ^ s * 2 ^ f := mul_le_mul_of_nonneg_right hm hp.le
        have h2 : 0 < (2 : ℚ) ^ s * 2 ^ f := by positivity
        have h3 : 8 * 2 ^ f * 2 ^ s ≤ (2 : ℚ) ^ (w - 1) * 2 ^ s := mul_le_mul_of_nonneg_right (by linarith) hs.le
        linarith
      exact_mod_cast this)
  have v1 : val f (encZ w f 1 0) = 1 := by
    rw [val_encZ_exact hw f 1 0 (Nat.zero_le f) (by norm_num; linarith)]; norm_num
  obtain ⟨a1, b1⟩ := enc 9341319 25 (by norm_num [abs_of_pos])
  obtain ⟨a2, b2⟩ := enc 1932643 23 (by norm_num [abs_of_pos])
  obtain ⟨a3, b3⟩ := enc 16698833 34 (by norm_num [abs_of_pos])
  obtain ⟨a4, b4⟩ := enc 5241739 26 (by norm_num [abs_of_pos])
  have hlist : (erfCoeffs.map fun c => encZ w f c.1 c.2) =
    encZ w f 1 0 :: [encZ w f 9341319 25, encZ w f 1932643 23, encZ w f 16698833 34, encZ w f 5241739 26] := rfl
  rw [hlist]
  set k1 := encZ w f 9341319 25
  set k2 := encZ w f 1932643 23
  set k3 := encZ w f 16698833 34
  set k4 := encZ w f 5241739 26
  replace b1 : |val f k1| ≤ 2784 / 10000 := b1.trans (by norm_num [abs_of_pos])
  replace b2 : |val f k2| ≤ 2304 / 10000 := b2.trans (by norm_num [abs_of_pos])
  replace b3 : |val f k3| ≤ 10 / 10000 := b3.trans (by norm_num [abs_of_pos])
  replace b4 : |val f k4| ≤ 782 / 10000 := b4.trans (by norm_num [abs_of_pos])
  have near : ∀ {k c e : ℚ}, |k - c| ≤ u → |c - e| ≤ 3 / 1000000000 → |k - e| ≤ u + 3 / 1000000000 := fun {k c e} h1 h2 =>
    (abs_sub_le k c e).trans (add_le_add h1 h2)
  replace a1 := near (e := 0.278393) a1 (by norm_num [abs_of_pos, abs_of_neg])
  replace a2 := near (e := 0.230389) a2 (by norm_num [abs_of_pos, abs_of_neg])
  replace a3 := near (e := 0.000972) a3 (by norm_num [abs_of_pos, abs_of_neg])
  replace a4 := near (e := 0.078108) a4 (by norm_num [abs_of_pos, abs_of_neg])
  have hδ4 : (1 + δ) ^ 4 ≤ 101 / 100 := (pow_le_pow_left₀ (by linarith) (by linarith : 1 + δ ≤ 2001 / 2000) 4).trans (by norm_num)
  have hM4 : M ^ 4 ≤ 81 := (pow_le_pow_left₀ hM0 hM3 4).trans (by norm_num)
  have hpoly := c90_polynomial hw ht hR x (encZ w f 1 0) [k1, k2, k3, k4] (by simp) M hM1
    (by rw [← hX, abs_of_nonneg h0]; exact le_max_right _ _) (by
      simp only [List.length_cons, List.length_nil, Finset.sum_range_succ, Finset.sum_range_zero, List.getD_cons_zero, List.getD_cons_succ, v1, abs_one, ← hδ]
      have h1 : M ^ (0 + 1 + 1 + 1 + 1) * (1 + δ) ^ (0 + 1 + 1 + 1 + 1) ≤ 81 * (101 / 100) := mul_le_mul hM4 hδ4 (by positivity) (by norm_num)
      have h2 : (1 + 1 + (0 + |val f k1| + |val f k2| + |val f k3| + |val f k4|)) * (M ^ (0 + 1 + 1 + 1 + 1) * (1 + δ) ^ (0 + 1 + 1 + 1 + 1)) ≤ 3 * (81 * (101 / 100)) :=
        mul_le_mul (by linarith) h1 (by positivity) (by norm_num)
      exact lt_of_le_of_lt (mul_le_mul_of_nonneg_right h2 hp2.le) (by linarith))
  obtain ⟨r, hr, he⟩ := hpoly
  refine ⟨r, hr, ?_⟩
  simp only [List.length_cons, List.length_nil, Finset.sum_range_succ, Finset.sum_range_zero, List.getD_cons_zero, List.getD_cons_succ, v1, ← hδ, ← hX] at he
  set Q := 1 + (0 + val f k1 * X ^ (0 + 1) + val f k2 * X ^ (1 + 1) + val f k3 * X ^ (2 + 1) + val f k4 * X ^ (3 + 1)) with hQ
  obtain ⟨P1, P2, P3⟩ := handbookP_bounds h0 h3
  set P := handbookP X with hP
  -- the errors of the powers
  have hMM : ∀ k, k ≤ 4 → M ^ k ≤ M ^ 4 := fun k hk => pow_le_pow_right₀ hM1 hk
  have hpow : |val f r - Q| ≤ 3 / 2 * δ * M ^ 4 := by
    refine he.trans ?_
    have hm4 : 0 ≤ M ^ 4 := by positivity
    have hm41 : 1 ≤ M ^ 4 := one_le_pow₀ hM1
    have d2 : δ ^ 2 ≤ 1 / 2000 * δ := by rw [sq]; exact mul_le_mul_of_nonneg_right hd hδ0
    have d3 : δ ^ 3 ≤ 1 / 2000 * δ := by
      rw [pow_succ, pow_two]
      have : δ * δ ≤ 1 / 2000 * 1 := mul_le_mul hd (by linarith) hδ0 (by norm_num)
      exact mul_le_mul_of_nonneg_right (by linarith) hδ0
    have d20 : 0 ≤ δ ^ 2 := by positivity
    have d30 : 0 ≤ δ ^ 3 := by positivity
    have t2 : |val f k2| * (M ^ (1 + 1) * ((1 + δ) ^ 1 - 1)) ≤ 2304 / 10000 * (M ^ 4 * δ) :=
      mul_le_mul b2 (mul_le_mul (hMM 2 (by norm_num)) (by linarith) (by linarith) hm4) (mul_nonneg (by positivity) (by linarith)) (by norm_num)
    have t3 : |val f k3| * (M ^ (2 + 1) * ((1 + δ) ^ 2 - 1)) ≤ 10 / 10000 * (M ^ 4 * (3 * δ)) :=
      mul_le_mul b3 (mul_le_mul (hMM 3 (by norm_num)) (by linarith) (by linarith) hm4) (mul_nonneg (by positivity) (by linarith)) (by norm_num)
    have t4 : |val f k4| * (M ^ (3 + 1) * ((1 + δ) ^ 3 - 1)) ≤ 782 / 10000 * (M ^ 4 * (31 / 10 * δ)) :=
      mul_le_mul b4 (mul_le_mul le_rfl (by linarith) (by linarith) hm4) (mul_nonneg (by positivity) (by linarith)) (by norm_num)
    have t1 : |val f k1| * (M ^ (0 + 1) * ((1 + δ) ^ 0 - 1)) = 0 := by simp
    have t0 : δ ≤ M ^ 4 * δ := le_mul_of_one_le_left hδ0 hm41
    have hmd : 0 ≤ M ^ 4 * δ := by positivity
    linarith
  -- the errors of the coefficients
  have hu' : 0 ≤ u + 3 / 1000000000 := by linarith
  have hco : |Q - P| ≤ (u + 3 / 1000000000) * (X + X ^ 2 + X ^ 3 + X ^ 4) := by
    have e : Q - P = (val f k1 - 0.278393) * X + (val f k2 - 0.230389) * X ^ 2 + (val f k3 - 0.000972) * X ^ 3 + (val f k4 - 0.078108) * X ^ 4 := by
      rw [hQ, hP, handbookP]; ring
    have g : ∀ {a b : ℚ}, |a| ≤ u + 3 / 1000000000 → 0 ≤ b → |a * b| ≤ (u + 3 / 1000000000) * b := fun {a b} h1 h2 => by
      rw [abs_mul, abs_of_nonneg h2]; exact mul_le_mul_of_nonneg_right h1 h2
    have g1 := g a1 h0
    have g2 := g a2 (pow_nonneg h0 2)
    have g3 := g a3 (pow_nonneg h0 3)
    have g4 := g a4 (pow_nonneg h0 4)
    rw [e]
    refine ((abs_add_le _ _).trans (add_le_add ((abs_add_le _ _).trans (add_le_add ((abs_add_le _ _).trans (add_le_add g1 g2)) g3)) g4)).trans ?_
    linarith
  have htot := abs_sub_le (val f r) Q P
  have hMX : M ^ 4 ≤ 1 + X ^ 4 := by
    have := pow_nonneg h0 4
    rcases le_total 1 X with h | h
    · rw [hM, max_eq_right h]; linarith
    · rw [hM, max_eq_left h]; linarith
  constructor
  · have s1 : X ^ 4 ≤ 23 / 10 * P ^ 3 := by
      have := pow_nonneg h0 2; have := pow_nonneg h0 3; linarith
    have s2 : 1 ≤ P ^ 3 := one_le_pow₀ P1
    have s3 : 3 / 2 * δ * M ^ 4 ≤ 3 / 2 * δ * (33 / 10 * P ^ 3) := mul_le_mul_of_nonneg_left (by linarith) (by linarith)
    have s4 : (u + 3 / 1000000000) * (X + X ^ 2 + X ^ 3 + X ^ 4) ≤ (u + 3 / 1000000000) * (23 / 10 * P ^ 3) := mul_le_mul_of_nonneg_left P3 hu'
    have s5 : 0 ≤ δ * P ^ 3 := by positivity
    linarith
  · have s3 : 3 / 2 * δ * M ^ 4 ≤ 3 / 2 * (1 / 2000) * 81 := mul_le_mul (by linarith) hM4 (by positivity) (by norm_num)
    have p2 := pow_le_pow_left₀ h0 h3 2
    have p3 := pow_le_pow_left₀ h0 h3 3
    have p4 := pow_le_pow_left₀ h0 h3 4
    norm_num at p2 p3 p4
    have s4 : (u + 3 / 1000000000) * (X + X ^ 2 + X ^ 3 + X ^ 4) ≤ (1 / 4096 + 3 / 1000000000) * 120 :=
      mul_le_mul (by linarith) (by linarith) (by positivity) (by norm_num)
    norm_num at s3 s4
    linarith

/-- the two squarings, and the reciprocal of what they give -/
theorem erf_chain {p z z1 z2 δ κ : ℚ} (hp : 1 ≤ p) (hδ0 : 0 ≤ δ) (hδ : δ ≤ 1 / 2000) (hκ : 0 ≤ κ) (hz : |z - p| ≤ p ^ 3 * κ) (hz' : |z - p| ≤ 1 / 10)
    (h1 : |z1 - z * z| ≤ δ) (h2 : |z2 - z1 * z1| ≤ δ) :
    |z1| ≤ 122 / 100 * p ^ 2 ∧ 62 / 100 * p ^ 4 ≤ z2 ∧ z2 ≤ 147 / 100 * p ^ 4 ∧ |1 / z2 - 1 / p ^ 4| ≤ 6 * δ + 76 / 10 * κ := by
  have hp0 : 0 ≤ p := by linarith
  have hpp : 1 ≤ p ^ 2 := one_le_pow₀ hp
  have hp4 : 1 ≤ p ^ 4 := one_le_pow₀ hp
  have hp20 : p ≤ p ^ 2 := by rw [sq]; exact le_mul_of_one_le_left hp0 hp
  have e1 : z1 - p ^ 2 = (z1 - z * z) + (z - p) * (z + p) := by ring
  have hzp : |z + p| ≤ 21 / 10 * p := by
    have a := abs_le.1 hz'
    rw [abs_le]; constructor <;> linarith
  have q1 : |(z - p) * (z + p)| ≤ p ^ 3 * κ * (21 / 10 * p) := by
    rw [abs_mul]; exact mul_le_mul hz hzp (abs_nonneg _) (by positivity)
  have q1' : |(z - p) * (z + p)| ≤ 1 / 10 * (21 / 10 * p) := by
    rw [abs_mul]; exact mul_le_mul hz' hzp (abs_nonneg _) (by norm_num)
  have r1 : |z1 - p ^ 2| ≤ δ + p ^ 3 * κ * (21 / 10 * p) := by rw [e1]; exact (abs_add_le _ _).trans (by linarith)
  have r1' : |z1 - p ^ 2| ≤ 2105 / 10000 * p ^ 2 := by rw [e1]; exact (abs_add_le _ _).trans (by linarith)
  have b1 := abs_le.1 r1'
  have hz1 : |z1 + p ^ 2| ≤ 222 / 100 * p ^ 2 := by rw [abs_le]; constructor <;> linarith
  have e2 : z2 - p ^ 4 = (z2 - z1 * z1) + (z1 - p ^ 2) * (z1 + p ^ 2) := by ring
  have q2 : |(z1 - p ^ 2) * (z1 + p ^ 2)| ≤ (δ + p ^ 3 * κ * (21 / 10 * p)) * (222 / 100 * p ^ 2) := by
    rw [abs_mul]; exact mul_le_mul r1 hz1 (abs_nonneg _) (by positivity)
  have r2 : |z2 - p ^ 4| ≤ δ + (δ + p ^ 3 * κ * (21 / 10 * p)) * (222 / 100 * p ^ 2) := by
    rw [e2]; exact (abs_add_le _ _).trans (add_le_add h2 q2)
  have c2 := abs_le.1 h2
  have lo : 7895 / 10000 * p ^ 2 * (7895 / 10000 * p ^ 2) ≤ z1 * z1 := mul_self_le_mul_self (by positivity) (by linarith)
  have hi : z1 * z1 ≤ 12105 / 10000 * p ^ 2 * (12105 / 10000 * p ^ 2) := mul_self_le_mul_self (by linarith) (by linarith)
  have hlo : 62 / 100 * p ^ 4 ≤ z2 := by linarith
  have hhi : z2 ≤ 147 / 100 * p ^ 4 := by linarith
  refine ⟨by rw [abs_le]; constructor <;> linarith, hlo, hhi, ?_⟩
  have hz2 : 0 < z2 := by linarith
  have hp4' : 0 < p ^ 4 := by linarith
  rw [show 1 / z2 - 1 / p ^ 4 = -(z2 - p ^ 4) / (z2 * p ^ 4) by field_simp; ring, abs_div, abs_neg, abs_of_pos (by positivity : 0 < z2 * p ^ 4), div_le_iff₀ (by positivity)]
  have m1 : 62 / 100 * p ^ 4 * p ^ 4 ≤ z2 * p ^ 4 := mul_le_mul_of_nonneg_right hlo hp4'.le
  have m2 := mul_le_mul_of_nonneg_left m1 (by linarith : 0 ≤ 6 * δ + 76 / 10 * κ)
  have x1 : δ ≤ δ * p ^ 8 := le_mul_of_one_le_right hδ0 (one_le_pow₀ hp)
  have x2 : δ * p ^ 2 ≤ δ * p ^ 8 := mul_le_mul_of_nonneg_left (pow_le_pow_right₀ hp (by norm_num)) hδ0
  have x3 : κ * p ^ 6 ≤ κ * p ^ 8 := mul_le_mul_of_nonneg_left (pow_le_pow_right₀ hp (by norm_num)) hκ
  have x0 : 0 ≤ κ * p ^ 8 := by positivity
  have x5 : 0 ≤ δ * p ^ 8 := by positivity
  linarith

theorem recipPos_eq (hw : 0 < w) (trunc : BitVec w → BitVec w) (f cfg : ℕ) (b : BitVec w) (hb : 0 ≤ b.toInt) :
    recipPos trunc f cfg b = FxpDiv.reciprocal trunc f cfg b := by
  have h : ∀ a c : BitVec w, mux (HalRing.msb b) a c = c := fun a c => by
    rw [hal_msb hw, c37_mux, if_neg (by simp; omega)]
  simp only [recipPos, FxpDiv.reciprocal, h]

theorem erfImpl_some {f cfg n : ℕ} (hf : 2 * f < w) (hn : numIters cfg f = some n) (T : ℕ → BitVec w → BitVec w) (x : BitVec w) :
    ∃ r, erfImpl T f cfg x = some r := by
  have h1 : ∀ z, polynomial T f z (erfCoeffs.map fun c => encZ w f c.1 c.2) ≠ none := fun z h => by simp [polynomial, erfCoeffs] at h
  obtain ⟨z, hz⟩ := Option.ne_none_iff_exists'.1 (h1 x)
  simp [erfImpl, hz, recipPos, normFactor, recipNorm, hn, Semi2kConv.bitrev, hf, (by omega : 0 < w)]

/-- the bound: coefficients, truncations and the iterations of the reciprocal -/
def erfBound (f d n : ℕ) : ℚ := 52 * (d / 2 ^ f) + 18 / 2 ^ f + 1 / 10000000 + 162 / 100 * errBound (d / 2 ^ f) n (1 / 10) (d / 2 ^ f)

set_option maxHeartbeats 1600000 in
/-- below three -/
theorem erfImpl_close (t : ℕ) {f d : ℕ} {R : ℤ} {T : ℕ → BitVec (2 ^ t) → BitVec (2 ^ t)} (ht : TruncOk f d R (T f))
    (hf : 2 * f < 2 ^ t) (hf14 : 14 ≤ f) (hR : R ≤ 2 ^ (2 ^ t - 1)) (hRb : 16384 * 2 ^ (2 * f) ≤ R) (hd : (d : ℚ) / 2 ^ f ≤ 1 / 2000)
    (cfg n : ℕ) (hn : numIters cfg f = some n) (hnu : (11 / 10 : ℚ) ^ n * (31 * (d / 2 ^ f)) ≤ 1 / 2)
    (x : BitVec (2 ^ t)) (h0 : 0 ≤ val f x) (h3 : val f x ≤ 3) :
    ∃ r, erfImpl T f cfg x = some r ∧ |val f r| ≤ 8 ∧ |val f r - handbookErf (val f x)| ≤ erfBound f d n := by
  have hw : 0 < 2 ^ t := by positivity
  have hp : (0 : ℚ) < 2 ^ f := by positivity
  have hp2 : (0 : ℚ) < 2 ^ (2 * f) := by positivity
  have hff : (2 : ℚ) ^ f ≤ 2 ^ (2 * f) := pow_le_pow_right₀ (by norm_num) (by omega)
  have hRq : (R : ℚ) ≤ 2 ^ (2 ^ t - 1) := by exact_mod_cast hR
  have hRbq : 16384 * 2 ^ (2 * f) ≤ (R : ℚ) := by exact_mod_cast hRb
  have h14 : (16384 : ℚ) ≤ 2 ^ f := by
    calc (16384 : ℚ) = 2 ^ 14 := by norm_num
      _ ≤ 2 ^ f := pow_le_pow_right₀ (by norm_num) hf14
  have hu : (1 : ℚ) / 2 ^ f ≤ 1 / 4096 := one_div_le_one_div_of_le (by norm_num) (by linarith)
  have hu0 : (0 : ℚ) ≤ 1 / 2 ^ f := by positivity
  obtain ⟨z, hz, z1, z2⟩ := erf_poly hw ht hR hd hu hRb x h0 h3
  obtain ⟨P1, P2, -⟩ := handbookP_bounds h0 h3
  set δ : ℚ := (d : ℚ) / 2 ^ f with hδ
  have hδ0 : 0 ≤ δ := by rw [hδ]; positivity
  set p := handbookP (val f x) with hpd
  have p4 : p ^ 4 ≤ 11091 := (pow_le_pow_left₀ (by linarith) P2 4).trans (by norm_num)
  have p41 : 1 ≤ p ^ 4 := one_le_pow₀ P1
  have hzb : |val f z| ≤ 104 / 10 := by
    have a := abs_le.1 z2
    rw [abs_le]; constructor <;> linarith
  have hzz : |val f z * val f z| ≤ 110 := by
    rw [abs_mul]; exact (mul_le_mul hzb hzb (abs_nonneg _) (by norm_num)).trans (by norm_num)
  have s1 := val_fmul hw ht hR z z (lt_of_le_of_lt (mul_le_mul_of_nonneg_right hzz hp2.le) (by linarith))
  set y := fmul (T f) z z with hy
  -- the second square is below the range of the truncation
  have hκ : 0 ≤ 5 * δ + 23 / 10 * (1 / 2 ^ f + 3 / 1000000000) := by linarith
  have hyy'' : |val f y * val f y| < 16384 := by
    have hc := erf_chain P1 hδ0 hd hκ z1 z2 s1 (z2 := val f y * val f y) (by rw [sub_self, abs_zero]; exact hδ0)
    rw [abs_of_nonneg (mul_self_nonneg _)]
    linarith [hc.2.2.1]
  have s2 := val_fmul hw ht hR y y (lt_of_lt_of_le (mul_lt_mul_of_pos_right hyy'' hp2) hRbq)
  set q := fmul (T f) y y with hq
  obtain ⟨-, lo, hi, hinv⟩ := erf_chain P1 hδ0 hd hκ z1 z2 s1 s2
  have hq0 : 0 < val f q := by linarith
  have hqi : 0 ≤ q.toInt := by
    have : (0 : ℚ) ≤ q.toInt := by rw [← val_mul_pow f]; positivity
    exact_mod_cast this
  obtain ⟨r, hr, hre⟩ := c73_recip t f d R (T f) ht hf (by omega) hR (by linarith [(by positivity : (0 : ℤ) < 2 ^ (2 * f))]) (by linarith) cfg n hn hnu q hq0.ne'
    (by rw [abs_of_pos hq0]; linarith) (by
      rw [abs_of_pos hq0]
      have : (R : ℚ) * (62 / 100) ≤ R * val f q := mul_le_mul_of_nonneg_left (by linarith) (by linarith)
      linarith)
  rw [← recipPos_eq hw _ _ _ _ hqi] at hr
  rw [abs_of_pos hq0, ← hδ] at hre
  obtain ⟨m, rfl⟩ : ∃ m, n = m + 1 := by
    refine ⟨n - 1, ?_⟩
    simp only [numIters] at hn
    generalize (if 30 ≤ f then max cfg 3 else cfg) = k at hn
    split at hn
    · simp at hn
    · rename_i h; simp only [Option.some.injEq] at hn; omega
  obtain ⟨E0, E1⟩ := errBound_le hδ0 (by linarith : δ ≤ 1 / 256) m (1 / 10) δ (by norm_num) le_rfl hδ0
    (by rw [show δ + 30 * δ = 31 * δ by ring]; exact hnu)
  have hE0 : 0 ≤ errBound δ (m + 1) (1 / 10) δ + 4 * δ := by linarith
  have hinv2 : 1 / val f q ≤ 162 / 100 := by
    rw [div_le_iff₀ hq0]; linarith
  have hre' : |val f r - 1 / val f q| ≤ 162 / 100 * (errBound δ (m + 1) (1 / 10) δ + 4 * δ) + δ :=
    hre.trans (by linarith [mul_le_mul_of_nonneg_right hinv2 hE0])
  have hrp := (abs_sub_le (val f r) (1 / val f q) (1 / p ^ 4)).trans (add_le_add hre' hinv)
  refine ⟨sub (encZ (2 ^ t) f 1 0) r, by simp only [erfImpl, hz, Option.bind_eq_bind, Option.bind_some, ← hy, ← hq, hr]; rfl, ?_⟩
  have v1 : val f (encZ (2 ^ t) f 1 0) = 1 := by
    rw [val_encZ_exact hw f 1 0 (Nat.zero_le f) (by norm_num; linarith)]; norm_num
  have hip : 0 ≤ 1 / p ^ 4 ∧ 1 / p ^ 4 ≤ 1 := ⟨by positivity, by rw [div_le_one (by linarith)]; exact p41⟩
  have hrb := abs_le.1 hrp
  have h8 : |1 - val f r| ≤ 8 := by rw [abs_le]; constructor <;> linarith
  have hsub : val f (sub (encZ (2 ^ t) f 1 0) r) = 1 - val f r := by
    rw [val_sub hw f _ _ ?_, v1]
    rw [v1]
    exact lt_of_le_of_lt (mul_le_mul_of_nonneg_right h8 hp.le) (by linarith)
  refine ⟨by rw [hsub]; exact h8, ?_⟩
  rw [hsub, handbookErf, ← hpd, show 1 - val f r - (1 - 1 / p ^ 4) = -(val f r - 1 / p ^ 4) by ring, abs_neg, erfBound, ← hδ,
    show (18 : ℚ) / 2 ^ f = 18 * (1 / 2 ^ f) by ring]
  linarith

/-- C96: the error function of a secret against the formula of the Handbook; from three on the result is one, exactly. -/
theorem c96_erf (t : ℕ) {f d : ℕ} {R : ℤ} {T : ℕ → BitVec (2 ^ t) → BitVec (2 ^ t)} (ht : TruncOk f d R (T f))
    (hf : 2 * f < 2 ^ t) (hf14 : 14 ≤ f) (hR : R ≤ 2 ^ (2 ^ t - 1)) (hRb : 16384 * 2 ^ (2 * f) ≤ R) (hd : (d : ℚ) / 2 ^ f ≤ 1 / 2000)
    (cfg n : ℕ) (hn : numIters cfg f = some n) (hnu : (11 / 10 : ℚ) ^ n * (31 * (d / 2 ^ f)) ≤ 1 / 2)
    (x : BitVec (2 ^ t)) (hx : x.toInt ≠ -(2 ^ (2 ^ t - 1) : ℤ)) :
    ∃ r, Erf.erf T f cfg x = some r ∧ (|val f x| < 3 → |val f r - erfSpec (val f x)| ≤ erfBound f d n) ∧
      (3 ≤ |val f x| → val f r = erfSpec (val f x)) := by
  have hw : 0 < 2 ^ t := by positivity
  have hp : (0 : ℚ) < 2 ^ f := by positivity
  have hp2 : (0 : ℚ) < 2 ^ (2 * f) := by positivity
  have hff : (2 : ℚ) ^ f ≤ 2 ^ (2 * f) := pow_le_pow_right₀ (by norm_num) (by omega)
  have hRq : (R : ℚ) ≤ 2 ^ (2 ^ t - 1) := by exact_mod_cast hR
  have hRbq : 16384 * 2 ^ (2 * f) ≤ (R : ℚ) := by exact_mod_cast hRb
  have v1 : val f (encZ (2 ^ t) f 1 0) = 1 := by
    rw [val_encZ_exact hw f 1 0 (Nat.zero_le f) (by norm_num; linarith)]; norm_num
  have v3 : val f (encZ (2 ^ t) f 3 0) = 3 := by
    rw [val_encZ_exact hw f 3 0 (Nat.zero_le f) (by norm_num; linarith)]; norm_num
  have v0 : (encZ (2 ^ t) f 0 0).toInt = 0 := by
    have : encZ (2 ^ t) f 0 0 = 0 := by simp [encZ]
    rw [this]; simp
  have hai := c37_abs hw x hx
  have hav : val f (HalRing.abs x) = |val f x| := by
    rw [val, hai, val, abs_div, abs_of_pos hp]; push_cast; rfl
  have lt := BitVec.toInt_lt (x := HalRing.abs x)
  have lt3 := BitVec.toInt_lt (x := encZ (2 ^ t) f 3 0)
  have hlx := BitVec.toInt_lt (x := x)
  have hgx := BitVec.le_toInt (x := x)
  have h3i : 0 ≤ (encZ (2 ^ t) f 3 0).toInt := by
    have : (0 : ℚ) ≤ (encZ (2 ^ t) f 3 0).toInt := by rw [← val_mul_pow f, v3]; positivity
    exact_mod_cast this
  have ha0 : 0 ≤ (HalRing.abs x).toInt := by rw [hai]; exact abs_nonneg _
  have hpred : less x (encZ (2 ^ t) f 0 0) = bit (decide (val f x < 0)) := by
    rw [less_ok hw (by unfold NoOverflow; rw [v0]; constructor <;> linarith), v0]
    congr 1
    rw [decide_eq_decide, val, div_lt_iff₀ hp, zero_mul, Int.cast_lt_zero]
  have hcond : less (HalRing.abs x) (encZ (2 ^ t) f 3 0) = bit (decide (|val f x| < 3)) := by
    rw [less_ok hw (by unfold NoOverflow; constructor <;> linarith)]
    congr 1
    rw [decide_eq_decide, ← hav, ← v3, val, val, div_lt_div_iff_of_pos_right hp, Int.cast_lt]
  have neg1 : ∀ y : BitVec (2 ^ t), |val f y| ≤ 8 → val f (-y) = -val f y := by
    intro y hy
    have h := val_sub hw f 0 y
    have z : val f (0 : BitVec (2 ^ t)) = 0 := by simp [val]
    rw [z, zero_sub, abs_neg] at h
    rw [← h (lt_of_le_of_lt (mul_le_mul_of_nonneg_right hy hp.le) (by linarith)), hal_sub, zero_sub]
  by_cases h3 : |val f x| < 3
  · obtain ⟨r, hr, h8, he⟩ := erfImpl_close t ht hf hf14 hR hRb hd cfg n hn hnu (HalRing.abs x) (by rw [hav]; exact abs_nonneg _) (by rw [hav]; exact h3.le)
    rw [hav] at he
    refine ⟨_, by simp only [Erf.erf, hr, Option.bind_eq_bind, Option.bind_some]; rfl, fun _ => ?_, fun h => absurd h3 (not_lt.2 h)⟩
    rw [hpred, hcond, c37_mux, c37_mux, erfSpec]
    simp only [h3, decide_true, if_true]
    by_cases hneg : val f x < 0
    · simp only [hneg, decide_true, if_true]
      rw [neg1 _ h8, neg_sub_neg, abs_sub_comm]
      exact he
    · simp only [hneg, decide_false, Bool.false_eq_true, if_false]
      exact he
  · obtain ⟨r, hr⟩ := erfImpl_some hf hn T (HalRing.abs x)
    refine ⟨_, by simp only [Erf.erf, hr, Option.bind_eq_bind, Option.bind_some]; rfl, fun h => absurd h h3, fun _ => ?_⟩
    rw [hpred, hcond, c37_mux, c37_mux, erfSpec]
    simp only [h3, decide_false, Bool.false_eq_true, if_false]
    by_cases hneg : val f x < 0
    · simp only [hneg, decide_true, if_true]
      rw [neg1 _ (by rw [v1]; norm_num), v1]
    · simp only [hneg, decide_false, Bool.false_eq_true, if_false]
      exact v1

/-- with 18 fraction bits in words of 64 bits and two iterations: one, minus a half and minus three -/
example : ∃ r1 r2 r3, Erf.erf (fun b (v : BitVec (2 ^ 6)) => v.sshiftRight b) 18 2 (BitVec.ofInt (2 ^ 6) (2 ^ 18)) = some r1 ∧
    Erf.erf (fun b (v : BitVec (2 ^ 6)) => v.sshiftRight b) 18 2 (BitVec.ofInt (2 ^ 6) (-2 ^ 17)) = some r2 ∧
    Erf.erf (fun b (v : BitVec (2 ^ 6)) => v.sshiftRight b) 18 2 (BitVec.ofInt (2 ^ 6) (-3 * 2 ^ 18)) = some r3 ∧
    |val 18 r1 - handbookErf 1| ≤ 6 / 10000 ∧ |val 18 r2 - -handbookErf (1 / 2)| ≤ 6 / 10000 ∧ val 18 r3 = -1 := by
  have e1 : (BitVec.ofInt (2 ^ 6) (2 ^ 18)).toInt = 2 ^ 18 := by decide +kernel
  have e2 : (BitVec.ofInt (2 ^ 6) (-2 ^ 17)).toInt = -2 ^ 17 := by decide +kernel
  have e3 : (BitVec.ofInt (2 ^ 6) (-3 * 2 ^ 18)).toInt = -3 * 2 ^ 18 := by decide +kernel
  have v1 : val 18 (BitVec.ofInt (2 ^ 6) (2 ^ 18)) = 1 := by rw [val, e1]; norm_num
  have v2 : val 18 (BitVec.ofInt (2 ^ 6) (-2 ^ 17)) = -(1 / 2) := by rw [val, e2]; norm_num
  have v3 : val 18 (BitVec.ofInt (2 ^ 6) (-3 * 2 ^ 18)) = -3 := by rw [val, e3]; norm_num
  have main := c96_erf 6 (f := 18) (d := 1) (R := 2 ^ 62) (T := fun b (v : BitVec (2 ^ 6)) => v.sshiftRight b) (truncOk_sar 18 _) (by norm_num) (by norm_num)
    (by norm_num) (by norm_num) (by norm_num) 2 2 rfl (by norm_num)
  obtain ⟨r1, h1, g1, -⟩ := main (BitVec.ofInt (2 ^ 6) (2 ^ 18)) (by rw [e1]; norm_num)
  obtain ⟨r2, h2, g2, -⟩ := main (BitVec.ofInt (2 ^ 6) (-2 ^ 17)) (by rw [e2]; norm_num)
  obtain ⟨r3, h3, -, g3⟩ := main (BitVec.ofInt (2 ^ 6) (-3 * 2 ^ 18)) (by rw [e3]; norm_num)
  have b : erfBound 18 1 2 ≤ 6 / 10000 := by norm_num [erfBound, errBound]
  refine ⟨r1, r2, r3, h1, h2, h3, ?_, ?_, ?_⟩
  · rw [v1] at g1
    have := g1 (by norm_num)
    rw [erfSpec, if_neg (by norm_num), abs_one, if_pos (by norm_num)] at this
    exact this.trans b
  · rw [v2] at g2
    have := g2 (by norm_num [abs_of_pos])
    rw [erfSpec, if_pos (by norm_num), abs_neg, abs_of_pos (by norm_num : (0 : ℚ) < 1 / 2), if_pos (by norm_num)] at this
    exact this.trans b
  · rw [v3] at g3
    have := g3 (by norm_num)
    rw [this, erfSpec, if_pos (by norm_num), abs_neg, abs_of_pos (by norm_num : (0 : ℚ) < 3), if_neg (by norm_num)]

/-- C96: the error function of minus `x` is minus that of `x`, bit by bit, for all words but zero and the smallest. -/
theorem c96_odd (hw : 0 < w) (T : ℕ → BitVec w → BitVec w) (f cfg : ℕ) (x : BitVec w) (h0 : x.toInt ≠ 0) (hx : x.toInt ≠ -(2 ^ (w - 1) : ℤ)) :
    Erf.erf T f cfg (-x) = (Erf.erf T f cfg x).map (fun r => -r) := by
  have hlx := BitVec.toInt_lt (x := x)
  have hgx := BitVec.le_toInt (x := x)
  have hpos : (0 : ℤ) < 2 ^ (w - 1) := by positivity
  have hneg : (-x).toInt = -x.toInt := toInt_eq_of hw _ _ (by rw [BitVec.ofInt_neg, BitVec.ofInt_toInt]) (by omega) (by omega)
  have habs : HalRing.abs (-x) = HalRing.abs x := by
    apply BitVec.eq_of_toInt_eq
    rw [c37_abs hw x hx, c37_abs hw (-x) (by rw [hneg]; omega), hneg, abs_neg]
  have v0 : (encZ w f 0 0).toInt = 0 := by
    have : encZ w f 0 0 = 0 := by simp [encZ]
    rw [this]; simp
  have p1 : less x (encZ w f 0 0) = bit (decide (x.toInt < 0)) := by
    rw [less_ok hw (by unfold NoOverflow; rw [v0]; constructor <;> omega), v0]
  have p2 : less (-x) (encZ w f 0 0) = bit (decide (-x.toInt < 0)) := by
    rw [less_ok hw (by unfold NoOverflow; rw [v0, hneg]; constructor <;> omega), v0, hneg]
  simp only [Erf.erf, habs, p1, p2, c37_mux]
  cases erfImpl T f cfg (HalRing.abs x) with
  | none => rfl
  | some r =>
    simp only [Option.bind_eq_bind, Option.bind_some, Option.pure_def, Option.map_some, Option.some.injEq, decide_eq_true_eq]
    rcases lt_or_gt_of_ne h0 with h | h
    · rw [if_neg (by omega), if_pos h, neg_neg]
    · rw [if_pos (by omega), if_neg (by omega)]

example : (BitVec.ofInt 64 (-2 ^ 17)).toInt ≠ 0 ∧ (BitVec.ofInt 64 (-2 ^ 17)).toInt ≠ -(2 ^ 63 : ℤ) ∧
    (Erf.erf (fun b (v : BitVec 64) => v.sshiftRight b) 18 2 (BitVec.ofInt 64 (-2 ^ 17))).map BitVec.toInt = some (-136477) := by
  decide +kernel

end Spu.Props

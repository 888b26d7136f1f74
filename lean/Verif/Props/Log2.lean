import Verif.Model.Log2
import Verif.Props.Log2Poly
import Verif.Props.LogApprox
import Verif.Props.Trig

set_option autoImplicit false

/-! # C97: binary logarithm of a secret -/

namespace Spu.Props
open Spu.Model Spu.Model.HalRing Spu.Model.FxpDiv Spu.Model.PolyApprox Spu.Model.Log2 Spu.Spec.FxpDiv Spu.Spec.Rounding

variable {w : ℕ}

/-- three products with encoded coefficients, truncated, and an encoded constant -/
theorem cubic_close (hw : 0 < w) {f d : ℕ} {R : ℤ} {T : ℕ → BitVec w → BitVec w} (ht : TruncOk f d R (T f)) (hR : R ≤ 2 ^ (w - 1))
    (hd : (d : ℚ) / 2 ^ f ≤ 1 / 2000) (hu : (1 : ℚ) / 2 ^ f ≤ 1 / 256) (hRb : 64 * 2 ^ (2 * f) ≤ R) (a1 a2 a3 : BitVec w) (t1 t2 t3 : ℚ)
    (l1 : |t1| ≤ 1) (l2 : |t2| ≤ 1) (l3 : |t3| ≤ 1) (h1 : |val f a1 - t1| ≤ d / 2 ^ f) (h2 : |val f a2 - t2| ≤ 301 / 100 * (d / 2 ^ f))
    (h3 : |val f a3 - t3| ≤ 501 / 100 * (d / 2 ^ f)) (m0 m1 m2 m3 : ℤ) (s0 s1 s2 s3 : ℕ) (b0 : |(m0 : ℚ) / 2 ^ s0| ≤ 9)
    (b1 : |(m1 : ℚ) / 2 ^ s1| ≤ 9) (b2 : |(m2 : ℚ) / 2 ^ s2| ≤ 9) (b3 : |(m3 : ℚ) / 2 ^ s3| ≤ 9) :
    |val f (T f (a1 * encZ w f m1 s1 + a2 * encZ w f m2 s2 + a3 * encZ w f m3 s3) + encZ w f m0 s0) -
      (m0 / 2 ^ s0 + m1 / 2 ^ s1 * t1 + m2 / 2 ^ s2 * t2 + m3 / 2 ^ s3 * t3)| ≤
      (1 + |(m1 : ℚ) / 2 ^ s1| + 301 / 100 * |(m2 : ℚ) / 2 ^ s2| + 501 / 100 * |(m3 : ℚ) / 2 ^ s3|) * (d / 2 ^ f) + 4 * (1 / 2 ^ f) := by
  set δ : ℚ := (d : ℚ) / 2 ^ f with hδ
  have hδ0 : 0 ≤ δ := by rw [hδ]; positivity
  set u : ℚ := 1 / 2 ^ f with hud
  have hu0 : 0 ≤ u := by rw [hud]; positivity
  have hp : (0 : ℚ) < 2 ^ f := by positivity
  have hp2 : (0 : ℚ) < 2 ^ (2 * f) := by positivity
  have hff : (256 : ℚ) * 2 ^ f ≤ 2 ^ (2 * f) := by
    rw [two_mul, pow_add]
    refine mul_le_mul_of_nonneg_right ?_ hp.le
    rw [hud, one_div_le_one_div hp (by norm_num)] at hu; exact hu
  have hRq : (R : ℚ) ≤ 2 ^ (w - 1) := by exact_mod_cast hR
  have hRbq : 64 * 2 ^ (2 * f) ≤ (R : ℚ) := by exact_mod_cast hRb
  have enc : ∀ (m : ℤ) (s : ℕ), |(m : ℚ) / 2 ^ s| ≤ 9 → |val f (encZ w f m s) - m / 2 ^ s| ≤ u ∧ |val f (encZ w f m s)| ≤ |(m : ℚ) / 2 ^ s| := by
    intro m s hm
    have hs : (0 : ℚ) < 2 ^ s := by positivity
    rw [abs_div, abs_of_pos hs, div_le_iff₀ hs] at hm
    have := val_encZ hw f m s (by
      have : |(m : ℚ)| * 2 ^ f < 2 ^ (w - 1) * 2 ^ s := by
        have h1 : |(m : ℚ)| * 2 ^ f ≤ 9 * 2 ^ s * 2 ^ f := mul_le_mul_of_nonneg_right hm hp.le
        have h2 : 0 < (2 : ℚ) ^ s * 2 ^ f := by positivity
        have h3 : 64 * 2 ^ f * 2 ^ s ≤ (2 : ℚ) ^ (w - 1) * 2 ^ s := mul_le_mul_of_nonneg_right (by linarith) hs.le
        linarith
      exact_mod_cast this)
    rw [abs_div, abs_of_pos hs]; exact this
  obtain ⟨e0, g0⟩ := enc m0 s0 b0
  obtain ⟨e1, g1⟩ := enc m1 s1 b1
  obtain ⟨e2, g2⟩ := enc m2 s2 b2
  obtain ⟨e3, g3⟩ := enc m3 s3 b3
  have r1 := coefTerm_close e1 g1 h1 l1 hu0
  have r2 := coefTerm_close e2 g2 h2 l2 hu0
  have r3 := coefTerm_close e3 g3 h3 l3 hu0
  set k0 := encZ w f m0 s0
  set k1 := encZ w f m1 s1
  set k2 := encZ w f m2 s2
  set k3 := encZ w f m3 s3
  set C1 : ℚ := m1 / 2 ^ s1
  set C2 : ℚ := m2 / 2 ^ s2
  set C3 : ℚ := m3 / 2 ^ s3
  set S : ℚ := val f k1 * val f a1 + val f k2 * val f a2 + val f k3 * val f a3 with hS
  have hSP : |S - (C1 * t1 + C2 * t2 + C3 * t3)| ≤ (|C1| + 301 / 100 * |C2| + 501 / 100 * |C3|) * δ + 3 * u := by
    have e : S - (C1 * t1 + C2 * t2 + C3 * t3) = (val f k1 * val f a1 - C1 * t1) + (val f k2 * val f a2 - C2 * t2) + (val f k3 * val f a3 - C3 * t3) := by
      rw [hS]; ring
    rw [e]
    refine (abs_add_three _ _ _).trans ?_
    linarith
  have hcoef : (|C1| + 301 / 100 * |C2| + 501 / 100 * |C3|) * δ ≤ 82 * (1 / 2000) := mul_le_mul (by linarith) hd hδ0 (by norm_num)
  have g : ∀ {c t : ℚ}, |c| ≤ 9 → |t| ≤ 1 → |c * t| ≤ 9 := fun {c t} h1 h2 => by
    rw [abs_mul]
    have := mul_le_mul h1 h2 (abs_nonneg _) ((abs_nonneg _).trans h1)
    linarith
  have hPb : |C1 * t1 + C2 * t2 + C3 * t3| ≤ 27 := (abs_add_three _ _ _).trans (by linarith [g b1 l1, g b2 l2, g b3 l3])
  have hSb : |S| ≤ 28 := by
    have := abs_add_le (S - (C1 * t1 + C2 * t2 + C3 * t3)) (C1 * t1 + C2 * t2 + C3 * t3); rw [sub_add_cancel] at this; linarith
  set Z : ℤ := k1.toInt * a1.toInt + k2.toInt * a2.toInt + k3.toInt * a3.toInt with hZ
  have hZS : (Z : ℚ) = S * 2 ^ (2 * f) := by
    rw [hZ, hS]
    push_cast
    simp only [← val_mul_pow f]
    rw [two_mul, pow_add]; ring
  have hZR : |Z| < R := by
    have : |(Z : ℚ)| < R := by
      rw [hZS, abs_mul, abs_of_pos hp2]
      exact lt_of_le_of_lt (mul_le_mul_of_nonneg_right hSb hp2.le) (by linarith)
    exact_mod_cast this
  have hdot : a1 * k1 + a2 * k2 + a3 * k3 = BitVec.ofInt w Z := by
    rw [hZ]
    simp only [BitVec.ofInt_add, BitVec.ofInt_mul, BitVec.ofInt_toInt]
    rw [mul_comm a1, mul_comm a2, mul_comm a3]
  rw [hdot]
  have hti : (BitVec.ofInt w Z).toInt = Z := by
    have := abs_lt.1 hZR
    exact toInt_eq_of hw _ Z rfl (by linarith) (by linarith)
  have hT := val_trunc_exact ht (BitVec.ofInt w Z) (by rw [hti]; exact hZR)
  rw [hti, hZS, mul_div_assoc, div_self hp2.ne', mul_one] at hT
  set y := T f (BitVec.ofInt w Z)
  have hyb : |val f y| ≤ 29 := by
    have := abs_add_le (val f y - S) S; rw [sub_add_cancel] at this; linarith
  rw [val_add hw f _ _ (by
    have h := abs_add_le (val f y) (val f k0)
    have h2 : |val f y + val f k0| * 2 ^ f ≤ 38 * 2 ^ f := mul_le_mul_of_nonneg_right (by linarith) hp.le
    linarith)]
  have e : val f y + val f k0 - (m0 / 2 ^ s0 + C1 * t1 + C2 * t2 + C3 * t3) = (val f y - S) + (S - (C1 * t1 + C2 * t2 + C3 * t3)) + (val f k0 - m0 / 2 ^ s0) := by ring
  rw [e]
  refine (abs_add_three _ _ _).trans ?_
  linarith

/-- numerator and denominator over the rationals -/
def log2Pq (x : ℚ) : ℚ := -8617897 / 2 ^ 22 + -2323293 / 2 ^ 18 * x + 3201225 / 2 ^ 19 * x ^ 2 + 5045197 / 2 ^ 20 * x ^ 3
def log2Qq (x : ℚ) : ℚ := 2965821 / 2 ^ 23 + 4765957 / 2 ^ 20 * x + 6740081 / 2 ^ 20 * x ^ 2 + x ^ 3

theorem log2_bounds {x : ℚ} (h0 : 1 / 2 ≤ x) (h1 : x ≤ 1) : 435 / 100 ≤ log2Qq x ∧ log2Qq x ≤ 124 / 10 ∧ |log2Pq x| ≤ 101 / 100 * log2Qq x ∧ |log2Pq x| ≤ 5 := by
  have x2 : x ^ 2 ≤ x := by rw [sq]; exact mul_le_of_le_one_left (by linarith) h1
  have x3 : x ^ 3 ≤ x ^ 2 := by rw [pow_succ]; exact mul_le_of_le_one_right (by positivity) h1
  have y2 : x - 1 / 4 ≤ x ^ 2 := by nlinarith [sq_nonneg (x - 1 / 2)]
  have y3 : 1 / 2 * x ^ 2 ≤ x ^ 3 := by
    rw [show x ^ 3 = x * x ^ 2 by ring]; exact mul_le_mul_of_nonneg_right h0 (by positivity)
  refine ⟨?_, ?_, ?_, ?_⟩
  · rw [log2Qq]; norm_num; linarith
  · rw [log2Qq]; norm_num; linarith
  · rw [log2Qq, log2Pq, abs_le]; norm_num; constructor <;> linarith
  · rw [log2Pq, abs_le]; norm_num; constructor <;> linarith

/-- the quotient -/
theorem quot_close {p q P Q δ u : ℚ} (hδ0 : 0 ≤ δ) (hδ : δ ≤ 1 / 2000) (hu0 : 0 ≤ u) (hu : u ≤ 1 / 256) (hQ : 435 / 100 ≤ Q) (hPQ : |P| ≤ 101 / 100 * Q)
    (hp : |p - P| ≤ 53 * δ + 4 * u) (hq : |q - Q| ≤ 31 * δ + 4 * u) : 43 / 10 ≤ q ∧ |p / q - P / Q| ≤ 20 * δ + 2 * u := by
  have hq' := abs_le.1 hq
  have hq43 : 43 / 10 ≤ q := by linarith
  refine ⟨hq43, ?_⟩
  have hq0 : 0 < q := by linarith
  have hQ0 : 0 < Q := by linarith
  rw [show p / q - P / Q = ((p - P) * Q - P * (q - Q)) / (q * Q) by field_simp; ring, abs_div, abs_of_pos (mul_pos hq0 hQ0), div_le_iff₀ (mul_pos hq0 hQ0)]
  have a1 : |(p - P) * Q| ≤ (53 * δ + 4 * u) * Q := by
    rw [abs_mul, abs_of_pos hQ0]; exact mul_le_mul_of_nonneg_right hp hQ0.le
  have a2 : |P * (q - Q)| ≤ 101 / 100 * Q * (31 * δ + 4 * u) := by
    rw [abs_mul]; exact mul_le_mul hPQ hq (abs_nonneg _) (by positivity)
  have a3 := abs_sub ((p - P) * Q) (P * (q - Q))
  have a4 : (20 * δ + 2 * u) * (43 / 10 * Q) ≤ (20 * δ + 2 * u) * (q * Q) :=
    mul_le_mul_of_nonneg_left (mul_le_mul_of_nonneg_right hq43 hQ0.le) (by linarith)
  have a5 : 0 ≤ δ * Q := by positivity
  have a6 : 0 ≤ u * Q := by positivity
  linarith

/-- the bound: the rational function, the truncations, the coefficients and the iterations of the division -/
def log2Bound (f d n : ℕ) : ℚ := 6 / 1000000 + 26 * (d / 2 ^ f) + 2 / 2 ^ f + 103 / 100 * errBound (d / 2 ^ f) n (1 / 10) (d / 2 ^ f)

set_option maxHeartbeats 1600000 in
/-- between one half and one -/
theorem log2Norm_close (t : ℕ) {f d : ℕ} {R : ℤ} {T : ℕ → BitVec (2 ^ t) → BitVec (2 ^ t)} (ht : TruncOk f d R (T f))
    (hf : 2 * f < 2 ^ t) (hf8 : 8 ≤ f) (hR : R ≤ 2 ^ (2 ^ t - 1)) (hRb : 64 * 2 ^ (2 * f) ≤ R) (hd : (d : ℚ) / 2 ^ f ≤ 1 / 2000)
    (cfg n : ℕ) (hn : numIters cfg f = some n) (hnu : (11 / 10 : ℚ) ^ n * (31 * (d / 2 ^ f)) ≤ 1 / 2)
    (x : BitVec (2 ^ t)) (V : ℚ) (h0 : 1 / 2 ≤ V) (h1 : V ≤ 1) (hx : |val f x - V| ≤ d / 2 ^ f) :
    ∃ r, log2Norm T f cfg x = some r ∧ |val f r| ≤ 4 ∧ |(val f r : ℝ) - Real.logb 2 V| ≤ (log2Bound f d n : ℚ) := by
  have hw : 0 < 2 ^ t := by positivity
  have hp : (0 : ℚ) < 2 ^ f := by positivity
  have hp2 : (0 : ℚ) < 2 ^ (2 * f) := by positivity
  have hRq : (R : ℚ) ≤ 2 ^ (2 ^ t - 1) := by exact_mod_cast hR
  have hRbq : 64 * 2 ^ (2 * f) ≤ (R : ℚ) := by exact_mod_cast hRb
  have h256 : (256 : ℚ) ≤ 2 ^ f := by
    calc (256 : ℚ) = 2 ^ 8 := by norm_num
      _ ≤ 2 ^ f := pow_le_pow_right₀ (by norm_num) hf8
  have hu : (1 : ℚ) / 2 ^ f ≤ 1 / 256 := one_div_le_one_div_of_le (by norm_num) h256
  have hu0 : (0 : ℚ) ≤ 1 / 2 ^ f := by positivity
  have hδ0' : (0 : ℚ) ≤ d / 2 ^ f := by positivity
  -- the powers
  have hxb : |val f x| ≤ 10005 / 10000 := by
    have a := abs_le.1 hx
    rw [abs_le]; constructor <;> linarith
  have hxx : |val f x * val f x| ≤ 2 := by
    rw [abs_mul]; exact (mul_le_mul hxb hxb (abs_nonneg _) (by norm_num)).trans (by norm_num)
  have s2 := val_fmul hw ht hR x x (lt_of_le_of_lt (mul_le_mul_of_nonneg_right hxx hp2.le) (by linarith))
  have hVV : V ^ 2 ≤ 1 := pow_le_one₀ (by linarith) h1
  have hV2 : 0 ≤ V ^ 2 := by positivity
  have c2 : |val f (fmul (T f) x x) - V ^ 2| ≤ 301 / 100 * (d / 2 ^ f) := by
    have e : val f (fmul (T f) x x) - V ^ 2 = (val f (fmul (T f) x x) - val f x * val f x) + (val f x - V) * (val f x + V) := by ring
    have e1 : |(val f x - V) * (val f x + V)| ≤ d / 2 ^ f * (20005 / 10000) := by
      rw [abs_mul]
      refine mul_le_mul hx ((abs_add_le _ _).trans ?_) (abs_nonneg _) hδ0'
      rw [abs_of_nonneg (by linarith : 0 ≤ V)]; linarith
    rw [e]; exact (abs_add_le _ _).trans (by linarith)
  set x2 := fmul (T f) x x with hx2
  have hx2b : |val f x2| ≤ 1002 / 1000 := by
    have a := abs_le.1 c2
    rw [abs_le]; constructor <;> linarith
  have hxx3 : |val f x2 * val f x| ≤ 2 := by
    rw [abs_mul]; exact (mul_le_mul hx2b hxb (abs_nonneg _) (by norm_num)).trans (by norm_num)
  have s3 := val_fmul hw ht hR x2 x (lt_of_le_of_lt (mul_le_mul_of_nonneg_right hxx3 hp2.le) (by linarith))
  have c3 : |val f (fmul (T f) x2 x) - V ^ 3| ≤ 501 / 100 * (d / 2 ^ f) := by
    have s2' : |val f x2 - V ^ 2| ≤ 30005 / 10000 * (d / 2 ^ f) := by
      have e : val f x2 - V ^ 2 = (val f x2 - val f x * val f x) + (val f x - V) * (val f x + V) := by ring
      have e1 : |(val f x - V) * (val f x + V)| ≤ d / 2 ^ f * (20005 / 10000) := by
        rw [abs_mul]
        refine mul_le_mul hx ((abs_add_le _ _).trans ?_) (abs_nonneg _) hδ0'
        rw [abs_of_nonneg (by linarith : 0 ≤ V)]; linarith
      rw [e]; exact (abs_add_le _ _).trans (by linarith)
    have e : val f (fmul (T f) x2 x) - V ^ 3 = (val f (fmul (T f) x2 x) - val f x2 * val f x) + (val f x2 - V ^ 2) * val f x + V ^ 2 * (val f x - V) := by ring
    have e1 : |(val f x2 - V ^ 2) * val f x| ≤ 30005 / 10000 * (d / 2 ^ f) * (10005 / 10000) := by
      rw [abs_mul]; exact mul_le_mul s2' hxb (abs_nonneg _) (by positivity)
    have e2 : |V ^ 2 * (val f x - V)| ≤ 1 * (d / 2 ^ f) := by
      rw [abs_mul, abs_of_nonneg hV2]; exact mul_le_mul hVV hx (abs_nonneg _) (by norm_num)
    rw [e]; exact (abs_add_three _ _ _).trans (by linarith)
  set x3 := fmul (T f) x2 x with hx3
  -- numerator and denominator
  have l1 : |V| ≤ 1 := by rw [abs_le]; constructor <;> linarith
  have l2 : |V ^ 2| ≤ 1 := by rw [abs_of_nonneg hV2]; exact hVV
  have l3 : |V ^ 3| ≤ 1 := by rw [abs_of_nonneg (by positivity)]; exact pow_le_one₀ (by linarith) h1
  have np := cubic_close hw ht hR hd hu hRb x x2 x3 V (V ^ 2) (V ^ 3) l1 l2 l3 hx c2 c3 (-8617897) (-2323293) 3201225 5045197 22 18 19 20
    (by norm_num [abs_of_pos, abs_of_neg]) (by norm_num [abs_of_pos, abs_of_neg]) (by norm_num [abs_of_pos, abs_of_neg]) (by norm_num [abs_of_pos, abs_of_neg])
  have nq := cubic_close hw ht hR hd hu hRb x x2 x3 V (V ^ 2) (V ^ 3) l1 l2 l3 hx c2 c3 2965821 4765957 6740081 1 23 20 20 0
    (by norm_num [abs_of_pos, abs_of_neg]) (by norm_num [abs_of_pos, abs_of_neg]) (by norm_num [abs_of_pos, abs_of_neg]) (by norm_num [abs_of_pos, abs_of_neg])
  have hdef : log2Norm T f cfg x = FxpDiv.div (T f) f cfg
    (T f (x * encZ (2 ^ t) f (-2323293) 18 + x2 * encZ (2 ^ t) f 3201225 19 + x3 * encZ (2 ^ t) f 5045197 20) + encZ (2 ^ t) f (-8617897) 22)
    (T f (x * encZ (2 ^ t) f 4765957 20 + x2 * encZ (2 ^ t) f 6740081 20 + x3 * encZ (2 ^ t) f 1 0) + encZ (2 ^ t) f 2965821 23) := rfl
  rw [hdef]
  set p := T f (x * encZ (2 ^ t) f (-2323293) 18 + x2 * encZ (2 ^ t) f 3201225 19 + x3 * encZ (2 ^ t) f 5045197 20) + encZ (2 ^ t) f (-8617897) 22
  set q := T f (x * encZ (2 ^ t) f 4765957 20 + x2 * encZ (2 ^ t) f 6740081 20 + x3 * encZ (2 ^ t) f 1 0) + encZ (2 ^ t) f 2965821 23
  set δ : ℚ := (d : ℚ) / 2 ^ f with hδ
  have hδ0 : 0 ≤ δ := hδ0'
  have np' : |val f p - log2Pq V| ≤ 53 * δ + 4 * (1 / 2 ^ f) := by
    have e : log2Pq V = ((-8617897 : ℤ) : ℚ) / 2 ^ 22 + ((-2323293 : ℤ) : ℚ) / 2 ^ 18 * V + ((3201225 : ℤ) : ℚ) / 2 ^ 19 * V ^ 2 + ((5045197 : ℤ) : ℚ) / 2 ^ 20 * V ^ 3 := by
      rw [log2Pq]; push_cast; ring
    rw [e]
    refine np.trans (add_le_add (mul_le_mul_of_nonneg_right ?_ hδ0) le_rfl)
    norm_num [abs_of_pos, abs_of_neg]
  have nq' : |val f q - log2Qq V| ≤ 31 * δ + 4 * (1 / 2 ^ f) := by
    have e : log2Qq V = ((2965821 : ℤ) : ℚ) / 2 ^ 23 + ((4765957 : ℤ) : ℚ) / 2 ^ 20 * V + ((6740081 : ℤ) : ℚ) / 2 ^ 20 * V ^ 2 + ((1 : ℤ) : ℚ) / 2 ^ 0 * V ^ 3 := by
      rw [log2Qq]; push_cast; ring
    rw [e]
    refine nq.trans (add_le_add (mul_le_mul_of_nonneg_right ?_ hδ0) le_rfl)
    norm_num [abs_of_pos, abs_of_neg]
  obtain ⟨B1, B2, B3, B4⟩ := log2_bounds h0 h1
  obtain ⟨hq43, hquot⟩ := quot_close hδ0 hd hu0 hu B1 B3 np' nq'
  have hq0 : 0 < val f q := by linarith
  have hqu : val f q ≤ 13 := by have := abs_le.1 nq'; linarith
  have hpb : |val f p| ≤ 6 := by
    have := abs_add_le (val f p - log2Pq V) (log2Pq V); rw [sub_add_cancel] at this; linarith
  have hPQ : |log2Pq V / log2Qq V| ≤ 101 / 100 := by
    rw [abs_div, abs_of_pos (by linarith : 0 < log2Qq V), div_le_iff₀ (by linarith)]; exact B3
  have hpq : |val f p / val f q| ≤ 103 / 100 := by
    have := abs_add_le (val f p / val f q - log2Pq V / log2Qq V) (log2Pq V / log2Qq V); rw [sub_add_cancel] at this; linarith
  obtain ⟨m, rfl⟩ : ∃ m, n = m + 1 := by
    refine ⟨n - 1, ?_⟩
    simp only [numIters] at hn
    generalize (if 30 ≤ f then max cfg 3 else cfg) = k at hn
    split at hn
    · simp at hn
    · rename_i h; simp only [Option.some.injEq] at hn; omega
  obtain ⟨E0, E1⟩ := errBound_le hδ0 (by linarith : δ ≤ 1 / 256) m (1 / 10) δ (by norm_num) le_rfl hδ0
    (by rw [show δ + 30 * δ = 31 * δ by ring]; exact hnu)
  obtain ⟨r, hr, hre⟩ := c73_div t f d R (T f) ht hf hf8 hR (by linarith [(by positivity : (0 : ℤ) < 2 ^ (2 * f))]) (by linarith) cfg (m + 1) hn hnu p q hq0.ne'
    (by rw [abs_of_pos hq0]; linarith) (by
      have := mul_le_mul_of_nonneg_right (by linarith : 4 * |val f p| ≤ 24) hp2.le
      linarith) (by
      rw [abs_of_pos hq0, ← hδ]
      have a := mul_le_mul_of_nonneg_right (by linarith : 4 * |val f p| + δ ≤ 25) hp2.le
      have b : (R : ℚ) * (43 / 10) ≤ R * val f q := mul_le_mul_of_nonneg_left hq43 (by linarith)
      linarith)
  rw [abs_of_pos hq0, ← hδ] at hre
  set E := errBound δ (m + 1) (1 / 10) δ with hE
  have d1 : |val f p / val f q| * (E + 4 * δ) ≤ 103 / 100 * (E + 4 * δ) := mul_le_mul_of_nonneg_right hpq (by linarith)
  have d2 : δ * (1 + 1 / val f q) ≤ δ * (1 + 1 / (43 / 10)) :=
    mul_le_mul_of_nonneg_left (by linarith [one_div_le_one_div_of_le (by norm_num : (0 : ℚ) < 43 / 10) hq43]) hδ0
  norm_num at d2
  have hfin : |val f r - log2Pq V / log2Qq V| ≤ 26 * δ + 2 * (1 / 2 ^ f) + 103 / 100 * E := by
    have := abs_sub_le (val f r) (val f p / val f q) (log2Pq V / log2Qq V)
    norm_num at hre
    linarith
  refine ⟨r, hr, ?_, ?_⟩
  · have := abs_add_le (val f r - log2Pq V / log2Qq V) (log2Pq V / log2Qq V); rw [sub_add_cancel] at this; linarith
  · have hc := log2_close' V (by have := (Rat.cast_le (K := ℝ)).2 h0; push_cast at this; exact this) (by exact_mod_cast h1)
    have hcast : ((log2Pq V / log2Qq V : ℚ) : ℝ) = log2P V / log2Q V := by
      rw [log2Pq, log2Qq, log2P, log2Q]; push_cast; rfl
    have h := (Rat.cast_le (K := ℝ)).2 hfin
    rw [Rat.cast_abs, Rat.cast_sub, hcast] at h
    have t := abs_sub_le (val f r : ℝ) (log2P V / log2Q V) (Real.logb 2 V)
    have hb : log2Bound f d (m + 1) = 6 / 1000000 + (26 * δ + 2 * (1 / 2 ^ f) + 103 / 100 * E) := by rw [log2Bound, ← hδ, ← hE]; ring
    rw [hb, Rat.cast_add]
    have e6 : ((6 / 1000000 : ℚ) : ℝ) = 6 / 1000000 := by norm_num
    rw [e6]
    linarith

/-- C97: the binary logarithm of a secret. -/
theorem c97_log2 (t : ℕ) {f d : ℕ} {R : ℤ} {T : ℕ → BitVec (2 ^ t) → BitVec (2 ^ t)} (ht : TruncOk f d R (T f))
    (hf : 2 * f < 2 ^ t) (hf8 : 8 ≤ f) (hR : R ≤ 2 ^ (2 ^ t - 1)) (hRb : 64 * 2 ^ (2 * f) ≤ R) (hd : (d : ℚ) / 2 ^ f ≤ 1 / 2000)
    (cfg n : ℕ) (hn : numIters cfg f = some n) (hnu : (11 / 10 : ℚ) ^ n * (31 * (d / 2 ^ f)) ≤ 1 / 2)
    (x : BitVec (2 ^ t)) (h0 : 0 < val f x) (h1 : val f x < 2 ^ f) :
    ∃ r, Log2.log2 T f cfg x = some r ∧ |(val f r : ℝ) - Real.logb 2 (val f x)| ≤ (log2Bound f d n : ℚ) := by
  have hw0 : 0 < 2 ^ t := by positivity
  have hpf : (0 : ℚ) < 2 ^ f := by positivity
  have hpp : (0 : ℚ) < 2 ^ (2 * f) := by positivity
  have hRq : (R : ℚ) ≤ 2 ^ (2 ^ t - 1) := by exact_mod_cast hR
  have hRbq : 64 * 2 ^ (2 * f) ≤ (R : ℚ) := by exact_mod_cast hRb
  have hf0 : (0 : ℚ) ≤ f := by positivity
  have hff : (f : ℚ) * 2 ^ f ≤ 2 ^ (2 * f) := by
    rw [two_mul, pow_add]
    refine mul_le_mul_of_nonneg_right ?_ hpf.le
    exact_mod_cast (Nat.lt_two_pow_self (n := f)).le
  have hff' : (2 : ℚ) ^ f ≤ 2 ^ (2 * f) := pow_le_pow_right₀ (by norm_num) (by omega)
  -- the word
  have hxi0 : 0 < x.toInt := by
    have : 0 < (x.toInt : ℚ) := by rw [← val_mul_pow f x]; positivity
    exact_mod_cast this
  have hnn : x.toInt = (x.toNat : ℤ) := by
    rw [BitVec.toInt_eq_toNat_cond] at hxi0 ⊢
    split at hxi0
    · rename_i hc; rw [if_pos hc]
    · have := x.isLt; omega
  have hx0 : x.toNat ≠ 0 := by omega
  set m := Nat.log2 x.toNat with hm
  have hm1 : 2 ^ m ≤ x.toNat := Nat.log2_self_le hx0
  have hm2 : x.toNat < 2 ^ (m + 1) := Nat.lt_log2_self
  have hml : m < 2 * f := by
    have hlt : (x.toNat : ℚ) < 2 ^ (2 * f) := by
      have : (x.toInt : ℚ) < 2 ^ (2 * f) := by
        rw [← val_mul_pow f x, two_mul, pow_add]
        exact mul_lt_mul_of_pos_right h1 hpf
      rw [hnn] at this; exact_mod_cast this
    have hlt : x.toNat < 2 ^ (2 * f) := by exact_mod_cast hlt
    exact (Nat.pow_lt_pow_iff_right (by norm_num)).1 (lt_of_le_of_lt hm1 hlt)
  obtain ⟨fac, hfac, hb⟩ := normFactor_bit t f hf x m hm1 hm2
  have hri : fac.toInt = 2 ^ (2 * f - 1 - m) := by
    refine toInt_twoPow_small _ (by omega) fac fun i => ?_
    rw [hb, decide_eq_decide]; omega
  set V : ℚ := x.toNat / 2 ^ (m + 1) with hV
  have hVx : val f x * val f fac = V := by
    rw [val, val, hri, hnn, hV]
    push_cast
    rw [div_mul_div_comm, ← pow_add, div_eq_div_iff (by positivity) (by positivity), mul_assoc, ← pow_add]
    congr 2; omega
  have hV1 : 1 / 2 ≤ V := by
    rw [hV, le_div_iff₀ (by positivity), pow_succ]
    have : (2 ^ m : ℚ) ≤ x.toNat := by exact_mod_cast hm1
    linarith
  have hV2 : V ≤ 1 := by
    rw [hV, div_le_one (by positivity)]
    exact_mod_cast hm2.le
  have hnorm := val_fmul hw0 ht hR x fac (by
    rw [hVx, abs_of_pos (by linarith)]
    have := mul_le_mul_of_nonneg_right hV2 hpp.le
    linarith)
  rw [hVx] at hnorm
  obtain ⟨r, hr, hr4, hre⟩ := log2Norm_close t ht hf hf8 hR hRb hd cfg n hn hnu (fmul (T f) x fac) V hV1 hV2 hnorm
  -- the power of two
  have hk : popcount (prefixOr x) (2 ^ t) = some (BitVec.ofNat (2 ^ t) (m + 1)) := by
    rw [c37_popcount hw0 _ _ (by omega), ones_prefixOr t x m _ hm1 hm2 (by omega)]
  set l2 := HalRing.sub (BitVec.ofNat (2 ^ t) (m + 1)) (BitVec.ofNat (2 ^ t) f) <<< f with hl2
  have hl2i : l2 = BitVec.ofInt (2 ^ t) (((m : ℤ) + 1 - f) * 2 ^ f) := by
    rw [hl2, hal_sub, ← shl_ofInt]
    congr 1
    rw [← BitVec.ofInt_natCast, ← BitVec.ofInt_natCast, ← ofInt_sub']
    congr 1
  have hmf : |(m : ℚ) + 1 - f| ≤ f := by
    have : (m : ℚ) + 1 ≤ 2 * f := by exact_mod_cast hml
    have : (0 : ℚ) ≤ m := by positivity
    rw [abs_le]; constructor <;> linarith
  have hl2v : val f l2 = m + 1 - f := by
    rw [val_of_eq hw0 f l2 _ hl2i]
    · push_cast; field_simp
    · push_cast
      rw [abs_mul, abs_of_pos hpf]
      have := mul_le_mul_of_nonneg_right hmf hpf.le
      linarith
  have hsum : val f (r + l2) = val f r + val f l2 := by
    refine val_add hw0 f _ _ ?_
    have h := abs_add_le (val f r) (val f l2)
    rw [hl2v] at h ⊢
    have h2 : |val f r + (m + 1 - f)| * 2 ^ f ≤ (f + 4) * 2 ^ f := mul_le_mul_of_nonneg_right (by linarith) hpf.le
    linarith
  refine ⟨r + l2, by simp only [Log2.log2, hk, hfac, Option.bind_eq_bind, Option.bind_some, hr, ← hl2]; rfl, ?_⟩
  have hVr : (0 : ℝ) < (V : ℝ) := by
    have : (0 : ℚ) < V := by linarith
    exact_mod_cast this
  have hXV : (val f x : ℝ) = (V : ℝ) * (2 : ℝ) ^ ((m : ℤ) + 1 - f) := by
    rw [hV, val, hnn]
    push_cast
    rw [zpow_sub₀ (by norm_num), zpow_natCast, show ((m : ℤ) + 1) = ((m + 1 : ℕ) : ℤ) by push_cast; rfl, zpow_natCast]
    field_simp
  have hlog : Real.logb 2 (val f x) = Real.logb 2 V + ((m : ℝ) + 1 - f) := by
    have h2 : Real.log 2 ≠ 0 := (Real.log_pos (by norm_num)).ne'
    rw [hXV, Real.logb_mul hVr.ne' (by positivity)]
    congr 1
    rw [Real.logb, Real.log_zpow, mul_div_cancel_right₀ _ h2]; push_cast; ring
  rw [hsum, hl2v, hlog]
  push_cast
  rw [add_sub_add_right_eq_sub]
  exact hre

/-- with 18 fraction bits in words of 64 bits and two iterations: the logarithm of ten -/
example : ∃ r, Log2.log2 (fun b (v : BitVec (2 ^ 6)) => v.sshiftRight b) 18 2 (BitVec.ofInt (2 ^ 6) (10 * 2 ^ 18)) = some r ∧
    |(val 18 r : ℝ) - Real.logb 2 10| ≤ 3 / 10000 := by
  have e : val 18 (BitVec.ofInt (2 ^ 6) (10 * 2 ^ 18)) = 10 := by
    rw [val, show (BitVec.ofInt (2 ^ 6) (10 * 2 ^ 18)).toInt = 10 * 2 ^ 18 by decide +kernel]; norm_num
  obtain ⟨r, h1, h2⟩ := c97_log2 6 (f := 18) (d := 1) (R := 2 ^ 62) (T := fun b (v : BitVec (2 ^ 6)) => v.sshiftRight b) (truncOk_sar 18 _)
    (by norm_num) (by norm_num) (by norm_num) (by norm_num) (by norm_num) 2 2 rfl (by norm_num) (BitVec.ofInt (2 ^ 6) (10 * 2 ^ 18))
    (by rw [e]; norm_num) (by rw [e]; norm_num)
  refine ⟨r, h1, ?_⟩
  rw [e] at h2
  have b : log2Bound 18 1 2 ≤ 3 / 10000 := by norm_num [log2Bound, errBound]
  have c := (Rat.cast_le (K := ℝ)).2 b
  push_cast at h2 c
  exact h2.trans c

/-- the bound on the operand is needed: the logarithm of `2 ^ 18`, which is 18, comes out below 13.2 -/
theorem c97_log2_range : ∃ r, Log2.log2 (fun b (v : BitVec (2 ^ 6)) => v.sshiftRight b) 18 2 (BitVec.ofInt (2 ^ 6) (2 ^ 36)) = some r ∧
    val 18 r < 132 / 10 := by
  refine ⟨BitVec.ofInt (2 ^ 6) 3457304, by decide +kernel, ?_⟩
  rw [val, show (BitVec.ofInt (2 ^ 6) 3457304).toInt = 3457304 by decide +kernel]; norm_num

end Spu.Props

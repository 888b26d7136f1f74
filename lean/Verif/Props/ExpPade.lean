import Verif.Props.ExpTaylor
import Mathlib.Analysis.SpecialFunctions.Pow.Real
import Mathlib.Analysis.Complex.ExponentialBounds

set_option autoImplicit false

/-! # C89: powers of two by a polynomial and the clamped exponential -/

namespace Spu.Props
open Spu.Model Spu.Model.HalRing Spu.Model.FxpDiv Spu.Model.ExpApprox Spu.Spec.Rounding Spu.Spec.FxpDiv

variable {w : ℕ}

/-- a product before truncation has twice the fraction bits -/
theorem val_mul_two (hw : 0 < w) (f : ℕ) (x y : BitVec w) (h : |val f x * val f y| * 2 ^ (2 * f) < 2 ^ (w - 1)) :
    val (2 * f) (x * y) = val f x * val f y := by
  have e : (val f x * val f y) * 2 ^ (2 * f) = ((x.toInt * y.toInt : ℤ) : ℚ) := by
    push_cast
    rw [← val_mul_pow f x, ← val_mul_pow f y, two_mul, pow_add]; ring
  rw [val_of_eq hw (2 * f) _ (x.toInt * y.toInt)]
  · rw [← e]; field_simp
  · rw [BitVec.ofInt_mul, ← ofInt_self, ← ofInt_self]
  · rw [← e, abs_mul, abs_of_pos (by positivity : (0 : ℚ) < 2 ^ (2 * f))]; exact h

theorem val_trunc_two {f d : ℕ} {R : ℤ} {trunc : BitVec w → BitVec w} (ht : TruncOk f d R trunc) (x : BitVec w)
    (hx : |val (2 * f) x| * 2 ^ (2 * f) < R) : |val f (trunc x) - val (2 * f) x| ≤ d / 2 ^ f := by
  have e0 : |val (2 * f) x| * 2 ^ (2 * f) = ((|x.toInt| : ℤ) : ℚ) := by
    have h2 : (0 : ℚ) < 2 ^ (2 * f) := by positivity
    rw [show |val (2 * f) x| * 2 ^ (2 * f) = |val (2 * f) x * 2 ^ (2 * f)| by rw [abs_mul, abs_of_pos h2], val_mul_pow]
    push_cast; rfl
  rw [e0] at hx
  have := val_trunc (f := f) ht x (by exact_mod_cast hx)
  rwa [show val f x / 2 ^ f = val (2 * f) x by rw [val, val, two_mul, pow_add, div_div]] at this

/-- the value of an encoded constant -/
theorem val_encF (hw : 0 < w) (f m s : ℕ) (h : m * 2 ^ f < 2 ^ (w - 1) * 2 ^ s) :
    val f (encF w f m s) ≤ m / 2 ^ s ∧ (m / 2 ^ s : ℚ) - 1 / 2 ^ f ≤ val f (encF w f m s) ∧ 0 ≤ val f (encF w f m s) := by
  have hlt : m * 2 ^ f / 2 ^ s < 2 ^ (w - 1) := Nat.div_lt_of_lt_mul (by rw [mul_comm (2 ^ s)]; exact h)
  have hv : val f (encF w f m s) = ((m * 2 ^ f / 2 ^ s : ℕ) : ℚ) / 2 ^ f := by
    have := val_of_eq hw f (encF w f m s) ((m * 2 ^ f / 2 ^ s : ℕ) : ℤ) (by rw [encF, BitVec.ofInt_natCast]) (by
      rw [abs_of_nonneg (by positivity)]; exact_mod_cast hlt)
    rw [this]; rfl
  have h2 : (0 : ℚ) < 2 ^ f := by positivity
  have h3 : (0 : ℚ) < 2 ^ s := by positivity
  refine ⟨?_, ?_, by rw [hv]; positivity⟩
  · rw [hv, div_le_div_iff₀ h2 h3]
    exact_mod_cast Nat.div_mul_le_self (m * 2 ^ f) (2 ^ s)
  · rw [hv, ← sub_nonneg, show (((m * 2 ^ f / 2 ^ s : ℕ) : ℚ) / 2 ^ f - (m / 2 ^ s - 1 / 2 ^ f)) =
      ((((m * 2 ^ f / 2 ^ s : ℕ) : ℚ) + 1) * 2 ^ s - m * 2 ^ f) / (2 ^ s * 2 ^ f) by field_simp; ring]
    refine div_nonneg (sub_nonneg.2 ?_) (by positivity)
    have := (Nat.lt_div_mul_add (a := m * 2 ^ f) (b := 2 ^ s) (by positivity)).le
    have h4 : m * 2 ^ f ≤ (m * 2 ^ f / 2 ^ s + 1) * 2 ^ s := by rw [add_mul, one_mul]; exact this
    exact_mod_cast h4

/-- the polynomial of the source -/
def expPoly (t : ℚ) : ℚ :=
  8388609 / 2 ^ 23 + 1453635 / 2 ^ 21 * t + 1007583 / 2 ^ 22 * t ^ 2 + 14899259 / 2 ^ 28 * t ^ 3 + 10327615 / 2 ^ 30 * t ^ 4 +
    11448067 / 2 ^ 33 * t ^ 5

/-- a rounded power of `t` times a rounded coefficient -/
theorem term_close {x p c X δ u k : ℚ} (hp : p ≤ c) (hp1 : c - u ≤ p) (hp0 : 0 ≤ p) (hX0 : 0 ≤ X) (hX1 : X ≤ 1) (hu : 0 ≤ u)
    (hδ : 0 ≤ k * δ) (hx : |x - X| ≤ k * δ) : |x * p - c * X| ≤ c * (k * δ) + u ∧ |x * p| ≤ c * (1 + k * δ) := by
  have e : x * p - c * X = (x - X) * p - (c - p) * X := by ring
  have h1 : |(x - X) * p| ≤ c * (k * δ) := by
    rw [abs_mul, abs_of_nonneg hp0, mul_comm]
    exact mul_le_mul hp hx (abs_nonneg _) (by linarith)
  have h2 : |(c - p) * X| ≤ u := by
    rw [abs_mul, abs_of_nonneg (by linarith), abs_of_nonneg hX0]
    nlinarith
  refine ⟨by rw [e]; exact (abs_sub _ _).trans (by linarith), ?_⟩
  have h3 : |x| ≤ 1 + k * δ := by
    have := abs_add_le (x - X) X
    rw [sub_add_cancel, abs_of_nonneg hX0] at this
    linarith
  rw [abs_mul, abs_of_nonneg hp0, mul_comm]
  exact mul_le_mul hp h3 (abs_nonneg _) (by linarith)

set_option maxHeartbeats 1600000 in
theorem exp2Norm_close (hw : 0 < w) {f d : ℕ} {R : ℤ} {T : ℕ → BitVec w → BitVec w} (ht : TruncOk f d R (T f))
    (hR : R ≤ 2 ^ (w - 1)) (hR4 : 4 * 2 ^ (2 * f) ≤ R) (hd : (d : ℚ) / 2 ^ f ≤ 1 / 8) (x : BitVec w) (h0 : 0 ≤ val f x) (h1 : val f x ≤ 1) :
    |val f (exp2Norm T f x) - expPoly (val f x)| ≤ 3 / 2 * (d / 2 ^ f) + 6 * (1 / 2 ^ f) := by
  have hRq : (R : ℚ) ≤ 2 ^ (w - 1) := by exact_mod_cast hR
  have hR4q : 4 * 2 ^ (2 * f) ≤ (R : ℚ) := by exact_mod_cast hR4
  have hff : (2 : ℚ) ^ f ≤ 2 ^ (2 * f) := pow_le_pow_right₀ (by norm_num) (by omega)
  have hp2 : (0 : ℚ) < 2 ^ (2 * f) := by positivity
  have hpw : 4 * 2 ^ (2 * f) ≤ 2 ^ (w - 1) := by
    have : (4 * 2 ^ (2 * f) : ℤ) ≤ 2 ^ (w - 1) := hR4.trans hR
    exact_mod_cast this
  have henc : ∀ m s, m < 4 * 2 ^ s → m * 2 ^ f < 2 ^ (w - 1) * 2 ^ s := by
    intro m s hm
    have : 2 ^ f ≤ 2 ^ (2 * f) := Nat.pow_le_pow_right (by norm_num) (by omega)
    calc m * 2 ^ f < 4 * 2 ^ s * 2 ^ f := Nat.mul_lt_mul_of_pos_right hm (by positivity)
      _ = 4 * 2 ^ f * 2 ^ s := by ring
      _ ≤ 2 ^ (w - 1) * 2 ^ s := Nat.mul_le_mul_right _ (by omega)
  set δ : ℚ := d / 2 ^ f with hδ
  set u : ℚ := 1 / 2 ^ f with hu
  have hδ0 : 0 ≤ δ := by positivity
  have hu0 : 0 ≤ u := by positivity
  set t := val f x with htd
  set x2 := fmul (T f) x x with hx2
  set x3 := fmul (T f) x x2 with hx3
  set x4 := fmul (T f) x x3 with hx4
  set x5 := fmul (T f) x x4 with hx5
  -- powers of `t`
  have step : ∀ (y : BitVec w) (Y k : ℚ), 0 ≤ k → k ≤ 3 → 0 ≤ Y → Y ≤ 1 → |val f y - Y| ≤ k * δ →
      |val f (fmul (T f) x y) - t * Y| ≤ (k + 1) * δ := by
    intro y Y k hk0 hk3 hY0 hY1 hy
    have hkδ : k * δ ≤ 3 / 8 := (mul_le_mul hk3 hd hδ0 (by norm_num)).trans (by norm_num)
    have hyb : |val f y| ≤ 1 + k * δ := by
      have := abs_add_le (val f y - Y) Y
      rw [sub_add_cancel, abs_of_nonneg hY0] at this
      linarith
    have hb : |t * val f y| ≤ 2 := by
      rw [abs_mul, abs_of_nonneg h0]; exact (mul_le_of_le_one_left (abs_nonneg _) h1).trans (by linarith)
    have h := val_fmul hw ht hR x y (by rw [← htd]; exact (mul_le_mul_of_nonneg_right hb hp2.le).trans_lt (by linarith))
    rw [← htd] at h
    have h' : |t * val f y - t * Y| ≤ k * δ := by
      rw [← mul_sub, abs_mul, abs_of_nonneg h0]
      exact (mul_le_of_le_one_left (abs_nonneg _) h1).trans hy
    have := abs_add_le (val f (fmul (T f) x y) - t * val f y) (t * val f y - t * Y)
    rw [sub_add_sub_cancel] at this
    linarith
  have e1 : |val f x - t| ≤ 0 * δ := by rw [← htd, sub_self, abs_zero, zero_mul]
  have hpow : ∀ n, 0 ≤ t ^ n ∧ t ^ n ≤ 1 := fun n => ⟨pow_nonneg h0 n, pow_le_one₀ h0 h1⟩
  have e2 : |val f x2 - t ^ 2| ≤ 1 * δ := by
    have := step x t 0 le_rfl (by norm_num) h0 h1 e1
    rwa [zero_add, ← sq] at this
  have e3 : |val f x3 - t ^ 3| ≤ 2 * δ := by
    have := step x2 (t ^ 2) 1 (by norm_num) (by norm_num) (hpow 2).1 (hpow 2).2 e2
    rwa [show t * t ^ 2 = t ^ 3 by ring, show (1 : ℚ) + 1 = 2 by norm_num] at this
  have e4 : |val f x4 - t ^ 4| ≤ 3 * δ := by
    have := step x3 (t ^ 3) 2 (by norm_num) (by norm_num) (hpow 3).1 (hpow 3).2 e3
    rwa [show t * t ^ 3 = t ^ 4 by ring, show (2 : ℚ) + 1 = 3 by norm_num] at this
  have e5 : |val f x5 - t ^ 5| ≤ 4 * δ := by
    have := step x4 (t ^ 4) 3 (by norm_num) (by norm_num) (hpow 4).1 (hpow 4).2 e4
    rwa [show t * t ^ 4 = t ^ 5 by ring, show (3 : ℚ) + 1 = 4 by norm_num] at this
  -- coefficients
  clear step
  obtain ⟨a0, b0, c0⟩ := val_encF hw f 8388609 23 (henc _ _ (by norm_num))
  rw [Nat.cast_ofNat] at a0 b0
  obtain ⟨a1, b1, c1⟩ := val_encF hw f 1453635 21 (henc _ _ (by norm_num))
  rw [Nat.cast_ofNat] at a1 b1
  obtain ⟨a2, b2, c2⟩ := val_encF hw f 1007583 22 (henc _ _ (by norm_num))
  rw [Nat.cast_ofNat] at a2 b2
  obtain ⟨a3, b3, c3⟩ := val_encF hw f 14899259 28 (henc _ _ (by norm_num))
  rw [Nat.cast_ofNat] at a3 b3
  obtain ⟨a4, b4, c4⟩ := val_encF hw f 10327615 30 (henc _ _ (by norm_num))
  rw [Nat.cast_ofNat] at a4 b4
  obtain ⟨a5, b5, c5⟩ := val_encF hw f 11448067 33 (henc _ _ (by norm_num))
  rw [Nat.cast_ofNat] at a5 b5
  obtain ⟨t1, m1⟩ := term_close (k := 0) (δ := δ) a1 b1 c1 h0 h1 hu0 (by positivity) e1
  obtain ⟨t2, m2⟩ := term_close (k := 1) (δ := δ) a2 b2 c2 (hpow 2).1 (hpow 2).2 hu0 (by positivity) e2
  obtain ⟨t3, m3⟩ := term_close (k := 2) (δ := δ) a3 b3 c3 (hpow 3).1 (hpow 3).2 hu0 (by positivity) e3
  obtain ⟨t4, m4⟩ := term_close (k := 3) (δ := δ) a4 b4 c4 (hpow 4).1 (hpow 4).2 hu0 (by positivity) e4
  obtain ⟨t5, m5⟩ := term_close (k := 4) (δ := δ) a5 b5 c5 (hpow 5).1 (hpow 5).2 hu0 (by positivity) e5
  set p0 := encF w f 8388609 23
  set p1 := encF w f 1453635 21
  set p2 := encF w f 1007583 22
  set p3 := encF w f 14899259 28
  set p4 := encF w f 10327615 30
  set p5 := encF w f 11448067 33
  have hdef : exp2Norm T f x = T f (x * p1 + x2 * p2 + x3 * p3 + x4 * p4 + x5 * p5) + p0 := rfl
  clear_value p0 p1 p2 p3 p4 p5
  -- the products add up without overflow
  have mul : ∀ (a b : BitVec w), |val f a * val f b| ≤ 1 → val (2 * f) (a * b) = val f a * val f b := fun a b h =>
    val_mul_two hw f a b ((mul_le_mul_of_nonneg_right h hp2.le).trans_lt (by linarith))
  have add : ∀ (a b : BitVec w), |val (2 * f) a + val (2 * f) b| ≤ 2 → val (2 * f) (a + b) = val (2 * f) a + val (2 * f) b := fun a b h =>
    val_add hw (2 * f) a b ((mul_le_mul_of_nonneg_right h hp2.le).trans_lt (by linarith))
  have n1 : |val f x * val f p1| ≤ 7 / 10 := m1.trans (by linarith)
  have n2 : |val f x2 * val f p2| ≤ 3 / 10 := m2.trans (by linarith)
  have n3 : |val f x3 * val f p3| ≤ 1 / 10 := m3.trans (by linarith)
  have n4 : |val f x4 * val f p4| ≤ 1 / 50 := m4.trans (by linarith)
  have n5 : |val f x5 * val f p5| ≤ 1 / 100 := m5.trans (by linarith)
  have s1 := mul x p1 (n1.trans (by norm_num))
  have s2 := mul x2 p2 (n2.trans (by norm_num))
  have s3 := mul x3 p3 (n3.trans (by norm_num))
  have s4 := mul x4 p4 (n4.trans (by norm_num))
  have s5 := mul x5 p5 (n5.trans (by norm_num))
  rw [abs_le] at n1 n2 n3 n4 n5
  have r2 : val (2 * f) (x * p1 + x2 * p2) = val f x * val f p1 + val f x2 * val f p2 := by
    rw [add _ _ (by rw [s1, s2, abs_le]; constructor <;> linarith), s1, s2]
  have r3 : val (2 * f) (x * p1 + x2 * p2 + x3 * p3) = val f x * val f p1 + val f x2 * val f p2 + val f x3 * val f p3 := by
    rw [add _ _ (by rw [r2, s3, abs_le]; constructor <;> linarith), r2, s3]
  have r4 : val (2 * f) (x * p1 + x2 * p2 + x3 * p3 + x4 * p4) =
      val f x * val f p1 + val f x2 * val f p2 + val f x3 * val f p3 + val f x4 * val f p4 := by
    rw [add _ _ (by rw [r3, s4, abs_le]; constructor <;> linarith), r3, s4]
  have r5 : val (2 * f) (x * p1 + x2 * p2 + x3 * p3 + x4 * p4 + x5 * p5) =
      val f x * val f p1 + val f x2 * val f p2 + val f x3 * val f p3 + val f x4 * val f p4 + val f x5 * val f p5 := by
    rw [add _ _ (by rw [r4, s5, abs_le]; constructor <;> linarith), r4, s5]
  set res := x * p1 + x2 * p2 + x3 * p3 + x4 * p4 + x5 * p5 with hres
  have hrb : |val (2 * f) res| ≤ 2 := by rw [r5, abs_le]; constructor <;> linarith
  have hT := val_trunc_two ht res ((mul_le_mul_of_nonneg_right hrb hp2.le).trans_lt (by linarith))
  have hu1 : u ≤ 1 := by
    rw [hu, div_le_one (by positivity)]; exact one_le_pow₀ (by norm_num)
  have hTb : |val f (T f res)| ≤ 9 / 4 := by
    have := abs_add_le (val f (T f res) - val (2 * f) res) (val (2 * f) res)
    rw [sub_add_cancel] at this
    linarith
  have hfin : val f (T f res + p0) = val f (T f res) + val f p0 := by
    refine val_add hw f _ _ ?_
    have : |val f (T f res) + val f p0| < 4 := by
      have := abs_add_le (val f (T f res)) (val f p0)
      rw [abs_of_nonneg c0] at this
      linarith
    have h4 : (0 : ℚ) < 2 ^ f := by positivity
    exact (mul_lt_mul_of_pos_right this h4).trans_le (by linarith)
  rw [hdef, hfin, expPoly]
  rw [r5] at hT
  rw [abs_le] at hT t1 t2 t3 t4 t5 ⊢
  clear_value δ u t
  obtain ⟨hT1, hT2⟩ := hT
  obtain ⟨t11, t12⟩ := t1
  obtain ⟨t21, t22⟩ := t2
  obtain ⟨t31, t32⟩ := t3
  obtain ⟨t41, t42⟩ := t4
  obtain ⟨t51, t52⟩ := t5
  constructor <;> linarith

end Spu.Props

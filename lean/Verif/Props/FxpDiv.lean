import Verif.Model.FxpDiv
import Verif.Spec.FxpDiv
import Verif.Props.Rounding
import Verif.Props.Semi2kGates

set_option autoImplicit false

/-! # C73: division of fixed-point numbers -/

namespace Spu.Props
open Spu.Model Spu.Model.HalRing Spu.Model.Rounding Spu.Model.FxpDiv Spu.Spec.Rounding Spu.Spec.FxpDiv

variable {w : ℕ}

/-! ### Arithmetic of values -/

theorem val_mul_pow (f : ℕ) (x : BitVec w) : val f x * 2 ^ f = x.toInt := by
  rw [val]; field_simp

theorem val_of_eq (hw : 0 < w) (f : ℕ) (v : BitVec w) (z : ℤ) (hv : v = BitVec.ofInt w z) (h : |(z : ℚ)| < 2 ^ (w - 1)) :
    val f v = z / 2 ^ f := by
  have h : |z| < 2 ^ (w - 1) := by exact_mod_cast h
  rw [abs_lt] at h
  rw [val, toInt_eq_of hw v z hv (by omega) h.2]

theorem ofInt_self (x : BitVec w) : x = BitVec.ofInt w x.toInt := (BitVec.ofInt_toInt).symm

theorem val_add (hw : 0 < w) (f : ℕ) (x y : BitVec w) (h : |val f x + val f y| * 2 ^ f < 2 ^ (w - 1)) :
    val f (x + y) = val f x + val f y := by
  rw [val_of_eq hw f _ (x.toInt + y.toInt)]
  · push_cast; rw [val, val]; field_simp
  · rw [BitVec.ofInt_add, ← ofInt_self, ← ofInt_self]
  · push_cast
    rw [← val_mul_pow f x, ← val_mul_pow f y, ← add_mul, abs_mul, abs_of_pos (by positivity : (0 : ℚ) < 2 ^ f)]
    exact h

theorem val_sub (hw : 0 < w) (f : ℕ) (x y : BitVec w) (h : |val f x - val f y| * 2 ^ f < 2 ^ (w - 1)) :
    val f (HalRing.sub x y) = val f x - val f y := by
  rw [hal_sub, val_of_eq hw f _ (x.toInt - y.toInt)]
  · push_cast; rw [val, val]; field_simp
  · rw [ofInt_sub', ← ofInt_self, ← ofInt_self]
  · push_cast
    rw [← val_mul_pow f x, ← val_mul_pow f y, ← sub_mul, abs_mul, abs_of_pos (by positivity : (0 : ℚ) < 2 ^ f)]
    exact h

theorem val_two_mul (hw : 0 < w) (f : ℕ) (x : BitVec w) (h : |2 * val f x| * 2 ^ f < 2 ^ (w - 1)) :
    val f (2 * x) = 2 * val f x := by
  have e : (2 : BitVec w) * x = x + x := by ring
  rw [e, val_add hw f x x (by rw [← two_mul]; exact h), two_mul]

/-- a product with truncation -/
theorem val_fmul (hw : 0 < w) {f d : ℕ} {R : ℤ} {trunc : BitVec w → BitVec w} (ht : TruncOk f d R trunc)
    (hR : R ≤ 2 ^ (w - 1)) (x y : BitVec w) (h : |val f x * val f y| * 2 ^ (2 * f) < R) :
    |val f (fmul trunc x y) - val f x * val f y| ≤ d / 2 ^ f := by
  have hf : (0 : ℚ) < 2 ^ f := by positivity
  have e : (val f x * val f y) * 2 ^ (2 * f) = ((x.toInt * y.toInt : ℤ) : ℚ) := by
    push_cast
    rw [← val_mul_pow f x, ← val_mul_pow f y, two_mul, pow_add]; ring
  have hz : |((x.toInt * y.toInt : ℤ) : ℚ)| < R := by
    rw [← e, abs_mul, abs_of_pos (by positivity : (0 : ℚ) < 2 ^ (2 * f))]; exact h
  have hz' : |x.toInt * y.toInt| < R := by exact_mod_cast hz
  have hx : (x * y).toInt = x.toInt * y.toInt := by
    have hb := abs_lt.1 (lt_of_lt_of_le hz' hR)
    refine toInt_eq_of hw _ _ ?_ (by omega) hb.2
    rw [BitVec.ofInt_mul, ← ofInt_self, ← ofInt_self]
  have hd := ht (x * y) (by rw [hx]; exact hz')
  rw [hx] at hd
  have hdq : |((2 ^ f * (trunc (x * y)).toInt - x.toInt * y.toInt : ℤ) : ℚ)| ≤ d * 2 ^ f := by exact_mod_cast hd
  have e2 : ((2 ^ f * (trunc (x * y)).toInt - x.toInt * y.toInt : ℤ) : ℚ) =
      (val f (fmul trunc x y) - val f x * val f y) * 2 ^ (2 * f) := by
    rw [sub_mul, e]
    push_cast
    rw [fmul, ← val_mul_pow f (trunc (x * y)), two_mul, pow_add]; ring
  rw [e2, abs_mul, abs_of_pos (by positivity : (0 : ℚ) < 2 ^ (2 * f)), two_mul, pow_add, ← mul_assoc] at hdq
  rw [le_div_iff₀ hf]
  exact le_of_mul_le_mul_right hdq hf

/-! ### The normalising power of two -/

theorem highest_pow (t : ℕ) (x : BitVec (2 ^ t)) (m : ℕ) (h1 : 2 ^ m ≤ x.toNat) (h2 : x.toNat < 2 ^ (m + 1)) (i : ℕ) :
    (highestOneBit x).getLsbD i = decide (i = m) := by
  have hm : x.getLsbD m = true := by
    rw [BitVec.getLsbD, Nat.testBit_eq_decide_div_mod_eq, decide_eq_true_eq]
    have : x.toNat / 2 ^ m = 1 := by
      rw [Nat.div_eq_iff (by positivity)]
      rw [pow_succ] at h2
      omega
    rw [this]
  have hhi : ∀ j, m < j → x.getLsbD j = false := by
    intro j hj
    rw [BitVec.getLsbD]
    exact Nat.testBit_lt_two_pow (lt_of_lt_of_le h2 (Nat.pow_le_pow_right (by omega) hj))
  rw [Bool.eq_iff_iff, c37_highestOneBit, decide_eq_true_eq]
  constructor
  · rintro ⟨ha, hb⟩
    by_contra hne
    rcases Nat.lt_or_gt_of_ne hne with h | h
    · rw [hb m h] at hm; simp at hm
    · rw [hhi i h] at ha; simp at ha
  · rintro rfl
    exact ⟨hm, hhi⟩

theorem normFactor_bit (t f : ℕ) (hf : 2 * f < 2 ^ t) (x : BitVec (2 ^ t)) (m : ℕ) (h1 : 2 ^ m ≤ x.toNat)
    (h2 : x.toNat < 2 ^ (m + 1)) :
    ∃ r, normFactor f x = some r ∧ ∀ i, r.getLsbD i = decide (i + m + 1 = 2 * f) := by
  obtain ⟨r, hr, hb⟩ := c46_bitrev (Nat.zero_le (2 * f)) hf (highestOneBit x)
  refine ⟨maskNumberOfBits r (2 * f), by simp [normFactor, hr], fun i => ?_⟩
  rw [c37_mask]
  by_cases hi : i < 2 ^ t
  · rw [hb i hi, highest_pow t x m h1 h2]
    by_cases hi2 : i < 2 * f
    · simp only [Spec.revIdx, hi2, decide_true, Bool.and_true, Nat.zero_le, true_and, if_true, decide_eq_decide]
      omega
    · simp only [hi2, decide_false, Bool.and_false]
      symm; rw [decide_eq_false_iff_not]; omega
  · rw [BitVec.getLsbD_of_ge _ _ (by omega), Bool.false_and]
    symm; rw [decide_eq_false_iff_not]; omega

theorem toInt_twoPow_small (k : ℕ) (hk : k + 1 < w) (r : BitVec w) (h : ∀ i, r.getLsbD i = decide (i = k)) :
    r.toInt = 2 ^ k := by
  have e : r = BitVec.twoPow w k := by
    apply BitVec.eq_of_getLsbD_eq
    intro i hi
    rw [h, BitVec.getLsbD_twoPow]
    by_cases hik : i = k
    · subst hik; simp; omega
    · simp [hik, Ne.symm hik]
  have hw : 0 < w := by omega
  have hp : (2 : ℤ) ^ k < 2 ^ (w - 1) := pow_lt_pow_right₀ (by norm_num) (by omega)
  have h0 : (0 : ℤ) < 2 ^ (w - 1) := by positivity
  refine toInt_eq_of hw _ _ ?_ ?_ hp
  · rw [e]
    apply BitVec.eq_of_toNat_eq
    rw [BitVec.toNat_twoPow, BitVec.toNat_ofInt]
    have : ((2 : ℤ) ^ k) = ((2 ^ k : ℕ) : ℤ) := by push_cast; rfl
    rw [this]; norm_cast
  · have : (0 : ℤ) < 2 ^ k := by positivity
    omega

/-- the factor of a positive number below `2^f` brings it into `[1/2, 1)` -/
theorem factor_val (t f : ℕ) (hf : 2 * f < 2 ^ t) (x : BitVec (2 ^ t)) (hx : 0 < x.toInt) (hlt : x.toInt < 2 ^ (2 * f)) :
    ∃ r, normFactor f x = some r ∧ 1 / 2 ≤ val f x * val f r ∧ val f x * val f r < 1 ∧ 0 < val f r := by
  have hn : x.toInt = (x.toNat : ℤ) := by
    rw [BitVec.toInt_eq_toNat_cond] at hx ⊢
    split at hx
    · rename_i hc; rw [if_pos hc]
    · have := x.isLt; omega
  have hx0 : x.toNat ≠ 0 := by omega
  set m := Nat.log2 x.toNat with hm
  have h1 : 2 ^ m ≤ x.toNat := Nat.log2_self_le hx0
  have h2 : x.toNat < 2 ^ (m + 1) := Nat.lt_log2_self
  have hml : m < 2 * f := by
    have : 2 ^ m < 2 ^ (2 * f) := lt_of_le_of_lt h1 (by rw [hn] at hlt; exact_mod_cast hlt)
    exact (Nat.pow_lt_pow_iff_right (by norm_num)).1 this
  obtain ⟨r, hr, hb⟩ := normFactor_bit t f hf x m h1 h2
  have hri : r.toInt = 2 ^ (2 * f - 1 - m) := by
    refine toInt_twoPow_small _ (by omega) r fun i => ?_
    rw [hb, decide_eq_decide]; omega
  have key : val f x * val f r = x.toNat / 2 ^ (m + 1) := by
    rw [val, val, hri, hn]
    push_cast
    rw [div_mul_div_comm, ← pow_add, div_eq_div_iff (by positivity) (by positivity), mul_assoc, ← pow_add]
    congr 2; omega
  refine ⟨r, hr, ?_, ?_, ?_⟩
  · rw [key, le_div_iff₀ (by positivity), pow_succ]
    have : (2 ^ m : ℚ) ≤ x.toNat := by exact_mod_cast h1
    linarith
  · rw [key, div_lt_one (by positivity)]
    exact_mod_cast h2
  · rw [val, hri]; positivity

theorem factor_zero (t f : ℕ) (hf : 2 * f < 2 ^ t) (x : BitVec (2 ^ t)) (h : x = 0 ∨ 2 ^ (2 * f) ≤ x.toNat) :
    normFactor f x = some 0 := by
  by_cases hx : x = 0
  · obtain ⟨r, hr, hb⟩ := c46_bitrev (Nat.zero_le (2 * f)) hf (highestOneBit x)
    simp only [normFactor, hr, Option.bind_eq_bind, Option.bind_some, Option.pure_def, Option.some.injEq]
    apply BitVec.eq_of_getLsbD_eq
    intro i hi
    have : (highestOneBit x).getLsbD (Spec.revIdx 0 (2 * f) i) = false := by
      rw [Bool.eq_false_iff, Ne, c37_highestOneBit, hx]; simp
    rw [c37_mask, hb i hi, this]; simp
  · have h := h.resolve_left hx
    have hx0 : x.toNat ≠ 0 := fun h0 => hx (BitVec.eq_of_toNat_eq (by simpa using h0))
    obtain ⟨r, hr, hb⟩ := normFactor_bit t f hf x _ (Nat.log2_self_le hx0) Nat.lt_log2_self
    have hm : 2 * f ≤ Nat.log2 x.toNat := (Nat.le_log2 hx0).2 h
    rw [hr]
    congr 1
    apply BitVec.eq_of_getLsbD_eq
    intro i hi
    rw [hb]
    simp only [BitVec.ofNat_eq_ofNat, BitVec.getLsbD_zero, decide_eq_false_iff_not]
    omega

/-! ### The iteration -/

/-- bound on `|c r - 1|` after `n` rounds started with `|e| ≤ E` and `|c r - (1 - e)| ≤ D`; `u` is the error of a product -/
def errBound (u : ℚ) : ℕ → ℚ → ℚ → ℚ
  | 0, E, D => E + D
  | 1, E, D => E ^ 2 + D * (1 + E) + (1 + u) * u
  | n + 2, E, D => errBound u (n + 1) (E ^ 2 + u) (D * (1 + E) + (1 + u) * u + u)

theorem guess_error {u c k : ℚ} (hu0 : 0 ≤ u) (hu : u ≤ 1 / 256) (h1 : 1 / 2 - u ≤ c) (h2 : c ≤ 1 + u) (k1 : 291 / 100 ≤ k)
    (k2 : k ≤ 29143 / 10000) : |1 - c * (k - 2 * c)| + u ≤ 1 / 10 := by
  have hp : (c - (1 / 2 - u)) * (c - (1 + u)) ≤ 0 := by nlinarith
  have hc : 0 < c := by linarith
  have hlo : -(9 / 100) ≤ 1 - c * (k - 2 * c) := by nlinarith [sq_nonneg (c - k / 4), sq_nonneg (k - 29143 / 10000)]
  have hhi : 1 - c * (k - 2 * c) ≤ 96 / 1000 := by nlinarith
  have := abs_le.2 ⟨(by linarith : -(96 / 1000) ≤ 1 - c * (k - 2 * c)), hhi⟩
  linarith

section
variable {f d : ℕ} {R : ℤ} {trunc : BitVec w → BitVec w}

theorem prod_small (hR4 : 4 * 2 ^ (2 * f) ≤ R) {q : ℚ} (h : |q| < 4) : |q| * 2 ^ (2 * f) < R := by
  have hp : (0 : ℚ) < 2 ^ (2 * f) := by positivity
  have : ((4 * 2 ^ (2 * f) : ℤ) : ℚ) ≤ R := by exact_mod_cast hR4
  push_cast at this
  nlinarith

theorem sum_small (hR : R ≤ 2 ^ (w - 1)) (hR4 : 4 * 2 ^ (2 * f) ≤ R) {q : ℚ} (h : |q| < 4) : |q| * 2 ^ f < 2 ^ (w - 1) := by
  have h1 := prod_small hR4 h
  have h2 : (R : ℚ) ≤ 2 ^ (w - 1) := by exact_mod_cast hR
  have h3 : (2 : ℚ) ^ f ≤ 2 ^ (2 * f) := pow_le_pow_right₀ (by norm_num) (by omega)
  have h4 := abs_nonneg q
  nlinarith

theorem val_kOne (hw : 0 < w) (hR : R ≤ 2 ^ (w - 1)) (hR4 : 4 * 2 ^ (2 * f) ≤ R) : val f (kOne w f) = 1 := by
  have h := sum_small (w := w) hR hR4 (q := 1) (by norm_num)
  rw [abs_one, one_mul] at h
  rw [kOne, val_of_eq hw f _ (2 ^ f : ℕ) (ofNat_ofInt _)]
  · push_cast; field_simp
  · push_cast; rw [abs_of_pos (by positivity)]; exact h

theorem iterate_ok (hw : 0 < w) (ht : TruncOk f d R trunc) (hR : R ≤ 2 ^ (w - 1)) (hR4 : 4 * 2 ^ (2 * f) ≤ R)
    (hu : (d : ℚ) / 2 ^ f ≤ 1 / 256) {c : ℚ} (hc1 : 1 / 2 - d / 2 ^ f ≤ c) (hc2 : c ≤ 1 + d / 2 ^ f) (n : ℕ) :
    ∀ (r e : BitVec w) (E D : ℚ), E ≤ 1 / 10 → 0 ≤ D → (11 / 10) ^ n * (D + 30 * (d / 2 ^ f)) ≤ 1 / 2 → |val f e| ≤ E →
      |c * val f r - (1 - val f e)| ≤ D → |c * val f (iterate trunc f n r e) - 1| ≤ errBound (d / 2 ^ f) n E D := by
  have hu0 : (0 : ℚ) ≤ d / 2 ^ f := by positivity
  generalize huu : (d : ℚ) / 2 ^ f = u at *
  have hcp : 0 < c := by linarith
  induction n with
  | zero =>
    intro r e E D hE hD _ he hd
    simp only [iterate, errBound]
    have : c * val f r - 1 = (c * val f r - (1 - val f e)) + -val f e := by ring
    rw [this]
    refine (abs_add_le _ _).trans ?_
    rw [abs_neg]; linarith
  | succ n ih =>
    intro r e E D hE hD hn he hd
    have hE0 : 0 ≤ E := (abs_nonneg _).trans he
    obtain ⟨he1, he2⟩ := abs_le.1 he
    obtain ⟨hd1, hd2⟩ := abs_le.1 hd
    have hpow : (1 : ℚ) ≤ (11 / 10) ^ n := one_le_pow₀ (by norm_num)
    have hD2 : D ≤ 1 / 2 := by
      rw [pow_succ] at hn
      nlinarith
    -- r is bounded
    have hr1 : c * val f r ≤ 16 / 10 := by linarith
    have hr0 : -(1 / 10) ≤ c * val f r + (-(1 / 2)) := by linarith
    have hrr : |val f r| * (1 + E) < 4 := by
      have h1 : |c * val f r| ≤ 16 / 10 := abs_le.2 ⟨by linarith, hr1⟩
      rw [abs_mul, abs_of_pos hcp] at h1
      have h2 := abs_nonneg (val f r)
      have h3 : (1 / 2 - 1 / 256) * |val f r| ≤ 16 / 10 := by nlinarith
      nlinarith
    have hone := val_kOne (f := f) hw hR hR4
    have hadd : val f (e + kOne w f) = val f e + 1 := by
      rw [val_add hw f _ _ (sum_small hR hR4 ?_), hone]
      rw [hone]; exact abs_lt.2 ⟨by linarith, by linarith⟩
    have hr' := val_fmul hw ht hR r (e + kOne w f) (prod_small hR4 (by
      rw [hadd, abs_mul]
      have : |val f e + 1| ≤ 1 + E := abs_le.2 ⟨by linarith, by linarith⟩
      have h2 := abs_nonneg (val f r)
      nlinarith))
    rw [hadd, huu] at hr'
    set r' := fmul trunc r (e + kOne w f) with hr'd
    obtain ⟨x1, x2⟩ := abs_le.1 hr'
    -- the error after one round
    have hstep : |c * val f r' - (1 - val f e ^ 2)| ≤ D * (1 + E) + (1 + u) * u := by
      have e1 : c * val f r' - (1 - val f e ^ 2) =
          (c * val f r - (1 - val f e)) * (1 + val f e) + c * (val f r' - val f r * (val f e + 1)) := by ring
      rw [e1]
      refine (abs_add_le _ _).trans ?_
      rw [abs_mul, abs_mul, abs_of_pos hcp]
      have a1 : |1 + val f e| ≤ 1 + E := abs_le.2 ⟨by linarith, by linarith⟩
      have a2 : |c * val f r - (1 - val f e)| * |1 + val f e| ≤ D * (1 + E) := mul_le_mul hd a1 (abs_nonneg _) hD
      have a3 : c * |val f r' - val f r * (val f e + 1)| ≤ (1 + u) * u := mul_le_mul hc2 hr' (abs_nonneg _) (by linarith)
      linarith
    have hsq : val f e ^ 2 ≤ E ^ 2 := sq_le_sq' he1 he2
    have hsq0 := sq_nonneg (val f e)
    simp only [iterate]
    rw [← hr'd]
    rcases n with _ | n
    · simp only [iterate, if_true]
      rw [show errBound u (0 + 1) E D = E ^ 2 + D * (1 + E) + (1 + u) * u from rfl]
      have : c * val f r' - 1 = (c * val f r' - (1 - val f e ^ 2)) + -(val f e ^ 2) := by ring
      rw [this]
      refine (abs_add_le _ _).trans ?_
      rw [abs_neg, abs_of_nonneg hsq0]
      linarith
    · rw [if_neg (by omega)]
      have he' := val_fmul hw ht hR e e (prod_small hR4 (by
        rw [← sq, abs_of_nonneg hsq0]
        have m2 : E * E ≤ 1 / 10 * (1 / 10) := mul_le_mul hE hE hE0 (by norm_num)
        rw [sq E] at hsq; linarith))
      rw [← sq, huu] at he'
      obtain ⟨y1, y2⟩ := abs_le.1 he'
      show |_| ≤ errBound u (n + 1) (E ^ 2 + u) (D * (1 + E) + (1 + u) * u + u)
      refine ih r' (fmul trunc e e) _ _ ?_ ?_ ?_ ?_ ?_
      · have m2 : E * E ≤ 1 / 10 * (1 / 10) := mul_le_mul hE hE hE0 (by norm_num)
        rw [sq]; linarith
      · have : 0 ≤ D * (1 + E) := mul_nonneg hD (by linarith)
        nlinarith
      · rw [pow_succ] at hn
        have m1 : D * (1 + E) ≤ D * (11 / 10) := mul_le_mul_of_nonneg_left (by linarith) hD
        have m2 : u * u ≤ 1 / 256 * u := mul_le_mul_of_nonneg_right hu hu0
        have m3 : D * (1 + E) + (1 + u) * u + u + 30 * u ≤ 11 / 10 * (D + 30 * u) := by linarith
        have h0 : (0 : ℚ) ≤ (11 / 10) ^ (n + 1) := by positivity
        have m4 := mul_le_mul_of_nonneg_left m3 h0
        rw [← mul_assoc] at m4
        exact m4.trans hn
      · exact abs_le.2 ⟨by linarith, by linarith⟩
      · have : c * val f r' - (1 - val f (fmul trunc e e)) =
          (c * val f r' - (1 - val f e ^ 2)) + (val f (fmul trunc e e) - val f e ^ 2) := by ring
        rw [this]
        refine (abs_add_le _ _).trans ?_
        linarith

theorem errBound_le {u : ℚ} (hu0 : 0 ≤ u) (hu : u ≤ 1 / 256) (n : ℕ) : ∀ (E D : ℚ), 0 ≤ E → E ≤ 1 / 10 → 0 ≤ D →
    (11 / 10) ^ (n + 1) * (D + 30 * u) ≤ 1 / 2 → 0 ≤ errBound u (n + 1) E D ∧ errBound u (n + 1) E D ≤ 51 / 100 := by
  have m2 : u * u ≤ 1 / 256 * u := mul_le_mul_of_nonneg_right hu hu0
  have m20 : 0 ≤ u * u := mul_nonneg hu0 hu0
  induction n with
  | zero =>
    intro E D hE0 hE hD h
    have m1 : D * (1 + E) ≤ D * (11 / 10) := mul_le_mul_of_nonneg_left (by linarith) hD
    have m3 : E * E ≤ 1 / 10 * (1 / 10) := mul_le_mul hE hE hE0 (by norm_num)
    have m4 : 0 ≤ D * (1 + E) := mul_nonneg hD (by linarith)
    have m5 : 0 ≤ E * E := mul_nonneg hE0 hE0
    rw [zero_add, pow_one] at h
    show 0 ≤ E ^ 2 + D * (1 + E) + (1 + u) * u ∧ E ^ 2 + D * (1 + E) + (1 + u) * u ≤ 51 / 100
    rw [sq]
    constructor <;> linarith
  | succ n ih =>
    intro E D hE0 hE hD h
    have m1 : D * (1 + E) ≤ D * (11 / 10) := mul_le_mul_of_nonneg_left (by linarith) hD
    have m3 : E * E ≤ 1 / 10 * (1 / 10) := mul_le_mul hE hE hE0 (by norm_num)
    have m4 : 0 ≤ D * (1 + E) := mul_nonneg hD (by linarith)
    have m5 : 0 ≤ E * E := mul_nonneg hE0 hE0
    refine ih (E ^ 2 + u) (D * (1 + E) + (1 + u) * u + u) (by rw [sq]; linarith) (by rw [sq]; linarith) (by linarith) ?_
    have m6 : D * (1 + E) + (1 + u) * u + u + 30 * u ≤ 11 / 10 * (D + 30 * u) := by linarith
    have m7 := mul_le_mul_of_nonneg_left m6 (by positivity : (0 : ℚ) ≤ (11 / 10) ^ (n + 1))
    rw [← mul_assoc, ← pow_succ] at m7
    exact m7.trans h

theorem val_kGuess (hw : 0 < w) (hR : R ≤ 2 ^ (w - 1)) (hR4 : 4 * 2 ^ (2 * f) ≤ R) (hf : 8 ≤ f) :
    291 / 100 ≤ val f (kGuess w f) ∧ val f (kGuess w f) ≤ 29143 / 10000 := by
  have h := sum_small (w := w) hR hR4 (q := 3) (by norm_num)
  have hp : (256 : ℚ) ≤ 2 ^ f := by
    calc (256 : ℚ) = 2 ^ 8 := by norm_num
      _ ≤ 2 ^ f := pow_le_pow_right₀ (by norm_num) hf
  have h1 := Nat.div_mul_le_self (12223041 * 2 ^ f) (2 ^ 22)
  have h2 := Nat.lt_div_mul_add (a := 12223041 * 2 ^ f) (b := 2 ^ 22) (by norm_num)
  rw [kGuess]
  generalize 12223041 * 2 ^ f / 2 ^ 22 = k at *
  have h1' : ((k * 2 ^ 22 : ℕ) : ℚ) ≤ ((12223041 * 2 ^ f : ℕ) : ℚ) := by exact_mod_cast h1
  have h2' : ((12223041 * 2 ^ f : ℕ) : ℚ) < ((k * 2 ^ 22 + 2 ^ 22 : ℕ) : ℚ) := by exact_mod_cast h2
  push_cast at h1' h2'
  norm_num at h1' h2' h
  rw [val_of_eq hw f _ (k : ℤ) (ofNat_ofInt _)]
  · push_cast
    rw [le_div_iff₀ (by positivity), div_le_iff₀ (by positivity)]
    constructor <;> linarith
  · push_cast
    rw [abs_of_nonneg (by positivity)]
    linarith

/-- the reciprocal of a normalised number -/
theorem recipNorm_ok (hw : 0 < w) (ht : TruncOk f d R trunc) (hR : R ≤ 2 ^ (w - 1)) (hR4 : 4 * 2 ^ (2 * f) ≤ R) (hf : 8 ≤ f)
    (hu : (d : ℚ) / 2 ^ f ≤ 1 / 256) {cfg n : ℕ} (hn : numIters cfg f = some n)
    (hnu : (11 / 10 : ℚ) ^ n * (31 * (d / 2 ^ f)) ≤ 1 / 2) (x factor : BitVec w) (h1 : 1 / 2 ≤ val f x * val f factor)
    (h2 : val f x * val f factor < 1) :
    ∃ r, recipNorm trunc f cfg x factor = some r ∧ |val f r| ≤ 4 ∧
      |val f x * val f factor * val f r - 1| ≤ errBound (d / 2 ^ f) n (1 / 10) (d / 2 ^ f) + 4 * (d / 2 ^ f) := by
  have hu0 : (0 : ℚ) ≤ d / 2 ^ f := by positivity
  refine ⟨_, by simp only [recipNorm, hn, Option.bind_eq_bind, Option.bind_some]; rfl, ?_⟩
  have hc := val_fmul hw ht hR x factor (prod_small hR4 (by rw [abs_of_nonneg (by linarith)]; linarith))
  obtain ⟨k1, k2⟩ := val_kGuess (f := f) hw hR hR4 hf
  have hone := val_kOne (f := f) hw hR hR4
  set c := fmul trunc x factor with hcd
  obtain ⟨c1, c2⟩ := abs_le.1 hc
  have hc1 : 1 / 2 - d / 2 ^ f ≤ val f c := by linarith
  have hc2 : val f c ≤ 1 + d / 2 ^ f := by linarith
  have h2c : val f (2 * c) = 2 * val f c :=
    val_two_mul hw f c (sum_small hR hR4 (abs_lt.2 ⟨by linarith, by linarith⟩))
  have hg : val f (HalRing.sub (kGuess w f) (2 * c)) = val f (kGuess w f) - 2 * val f c := by
    rw [val_sub hw f _ _ (sum_small hR hR4 ?_), h2c]
    rw [h2c]; exact abs_lt.2 ⟨by linarith, by linarith⟩
  set g := HalRing.sub (kGuess w f) (2 * c) with hgd
  have hge := guess_error hu0 hu hc1 hc2 k1 k2
  rw [← hg] at hge
  obtain ⟨g1, g2⟩ := abs_le.1 (by linarith : |1 - val f c * val f g| ≤ 1 / 10)
  have hcg := val_fmul hw ht hR c g (prod_small hR4 (abs_lt.2 ⟨by linarith, by linarith⟩))
  obtain ⟨x1, x2⟩ := abs_le.1 hcg
  have he : val f (HalRing.sub (kOne w f) (fmul trunc c g)) = 1 - val f (fmul trunc c g) := by
    rw [val_sub hw f _ _ (sum_small hR hR4 ?_), hone]
    rw [hone]; exact abs_lt.2 ⟨by linarith, by linarith⟩
  have hn0 : ∃ m, n = m + 1 := by
    refine ⟨n - 1, ?_⟩
    simp only [numIters] at hn
    generalize (if 30 ≤ f then max cfg 3 else cfg) = k at hn
    split at hn
    · simp at hn
    · rename_i h; simp only [Option.some.injEq] at hn; omega
  obtain ⟨m, rfl⟩ := hn0
  have hbound : (11 / 10 : ℚ) ^ (m + 1) * (d / 2 ^ f + 30 * (d / 2 ^ f)) ≤ 1 / 2 := by
    rw [show (d / 2 ^ f + 30 * (d / 2 ^ f) : ℚ) = 31 * (d / 2 ^ f) by ring]; exact hnu
  have hit := iterate_ok hw ht hR hR4 hu hc1 hc2 (m + 1) g (HalRing.sub (kOne w f) (fmul trunc c g)) (1 / 10) (d / 2 ^ f) le_rfl hu0
    hbound
    (by
      rw [he]
      have : 1 - val f (fmul trunc c g) = (1 - val f c * val f g) + -(val f (fmul trunc c g) - val f c * val f g) := by ring
      rw [this]
      refine (abs_add_le _ _).trans ?_
      rw [abs_neg]; linarith)
    (by
      rw [he]
      have : val f c * val f g - (1 - (1 - val f (fmul trunc c g))) = -(val f (fmul trunc c g) - val f c * val f g) := by ring
      rw [this, abs_neg]; exact hcg)
  obtain ⟨b0, b1⟩ := errBound_le hu0 hu m (1 / 10) (d / 2 ^ f) (by norm_num) le_rfl hu0 hbound
  set r := iterate trunc f (m + 1) g (HalRing.sub (kOne w f) (fmul trunc c g)) with hr
  have hrb : |val f r| ≤ 4 := by
    obtain ⟨i1, i2⟩ := abs_le.1 hit
    have h3 : |val f c * val f r| ≤ 151 / 100 := abs_le.2 ⟨by linarith, by linarith⟩
    rw [abs_mul, abs_of_pos (by linarith)] at h3
    have h4 := abs_nonneg (val f r)
    have h5 : (1 / 2 - 1 / 256) * |val f r| ≤ val f c * |val f r| := mul_le_mul_of_nonneg_right (by linarith) h4
    linarith
  refine ⟨hrb, ?_⟩
  have e1 : val f x * val f factor * val f r - 1 = (val f c * val f r - 1) + -(val f c - val f x * val f factor) * val f r := by ring
  rw [e1]
  refine (abs_add_le _ _).trans ?_
  rw [abs_mul, abs_neg]
  have : |val f c - val f x * val f factor| * |val f r| ≤ d / 2 ^ f * 4 := mul_le_mul hc hrb (abs_nonneg _) hu0
  linarith

end

/-- the absolute value computed by selection -/
theorem babs (hw : 0 < w) (f : ℕ) (b : BitVec w) (hb : |b.toInt| < 2 ^ (w - 1)) :
    (mux (HalRing.msb b) (-b) b).toInt = |b.toInt| ∧ val f (mux (HalRing.msb b) (-b) b) = |val f b| := by
  have h1 : (mux (HalRing.msb b) (-b) b).toInt = |b.toInt| := by
    rw [hal_msb hw, c37_mux]
    have h := abs_lt.1 hb
    by_cases hn : b.toInt < 0
    · simp only [hn, decide_true, if_true]
      rw [abs_of_neg hn]
      refine toInt_eq_of hw _ _ ?_ (by omega) (by omega)
      rw [BitVec.ofInt_neg, ← ofInt_self]
    · simp only [hn, decide_false, Bool.false_eq_true, if_false]
      rw [abs_of_nonneg (by omega)]
  refine ⟨h1, ?_⟩
  rw [val, h1, val, abs_div, abs_of_pos (by positivity : (0 : ℚ) < 2 ^ f)]
  push_cast; rfl

/-- C73: division, for every truncation with a bounded error. -/
theorem c73_div (t f d : ℕ) (R : ℤ) (trunc : BitVec (2 ^ t) → BitVec (2 ^ t)) (ht : TruncOk f d R trunc)
    (hf : 2 * f < 2 ^ t) (hf8 : 8 ≤ f) (hR : R ≤ 2 ^ (2 ^ t - 1)) (hR4 : 4 * 2 ^ (2 * f) ≤ R) (hu : (d : ℚ) / 2 ^ f ≤ 1 / 256)
    (cfg n : ℕ) (hn : numIters cfg f = some n) (hnu : (11 / 10 : ℚ) ^ n * (31 * (d / 2 ^ f)) ≤ 1 / 2)
    (a b : BitVec (2 ^ t)) (hb0 : val f b ≠ 0) (hb : |val f b| < 2 ^ f) (ha : 4 * |val f a| * 2 ^ (2 * f) < R)
    (hq : (4 * |val f a| + d / 2 ^ f) * 2 ^ (2 * f) < R * |val f b|) :
    ∃ q, FxpDiv.div trunc f cfg a b = some q ∧ |val f q - val f a / val f b| ≤
      |val f a / val f b| * (errBound (d / 2 ^ f) n (1 / 10) (d / 2 ^ f) + 4 * (d / 2 ^ f)) + d / 2 ^ f * (1 + 1 / |val f b|) := by
  have hw : 0 < 2 ^ t := by positivity
  have hu0 : (0 : ℚ) ≤ d / 2 ^ f := by positivity
  have hMq : (0 : ℚ) < 2 ^ f := by positivity
  have hbpos : 0 < |val f b| := abs_pos.2 hb0
  have hbi : |b.toInt| < 2 ^ (2 * f) := by
    have : ((|b.toInt| : ℤ) : ℚ) < 2 ^ (2 * f) := by
      push_cast
      rw [← val_mul_pow f b, abs_mul, abs_of_pos hMq, two_mul, pow_add]
      exact mul_lt_mul_of_pos_right hb hMq
    exact_mod_cast this
  have hlt : (2 : ℤ) ^ (2 * f) ≤ 2 ^ (2 ^ t - 1) := pow_le_pow_right₀ (by norm_num) (by omega)
  obtain ⟨hBi, hBv⟩ := babs hw f b (lt_of_lt_of_le hbi hlt)
  have hb0i : b.toInt ≠ 0 := by
    intro h; apply hb0; rw [val, h]; simp
  set B := mux (HalRing.msb b) (-b) b with hB
  obtain ⟨fac, hfac, f1, f2, f3⟩ := factor_val t f hf B (by rw [hBi]; exact abs_pos.2 hb0i) (by rw [hBi]; exact hbi)
  obtain ⟨r, hr, r1, r2⟩ := recipNorm_ok hw ht hR hR4 hf8 hu hn hnu B fac f1 f2
  rw [hBv] at f1 f2 r2
  have hphi : val f fac < 1 / |val f b| := by rw [lt_div_iff₀ hbpos]; linarith
  have hpp : (0 : ℚ) < 2 ^ (2 * f) := by positivity
  -- the two last products
  have p1 := val_fmul hw ht hR r a (by
    rw [abs_mul]
    have : |val f r| * |val f a| ≤ 4 * |val f a| := mul_le_mul_of_nonneg_right r1 (abs_nonneg _)
    exact lt_of_le_of_lt (mul_le_mul_of_nonneg_right this hpp.le) ha)
  set ra := fmul trunc r a with hra
  have hrab : |val f ra| ≤ 4 * |val f a| + d / 2 ^ f := by
    have e : val f ra = val f r * val f a + (val f ra - val f r * val f a) := by ring
    rw [e]
    refine (abs_add_le _ _).trans ?_
    rw [abs_mul]
    have : |val f r| * |val f a| ≤ 4 * |val f a| := mul_le_mul_of_nonneg_right r1 (abs_nonneg _)
    linarith
  have hprod : |val f ra * val f fac| * 2 ^ (2 * f) < R := by
    rw [abs_mul, abs_of_pos f3]
    have h1 : |val f ra| * val f fac ≤ (4 * |val f a| + d / 2 ^ f) * (1 / |val f b|) :=
      mul_le_mul hrab hphi.le f3.le (by positivity)
    have h2 : (4 * |val f a| + d / 2 ^ f) * (1 / |val f b|) * 2 ^ (2 * f) < R := by
      rw [mul_one_div, div_mul_eq_mul_div, div_lt_iff₀ hbpos]; exact hq
    exact lt_of_le_of_lt (mul_le_mul_of_nonneg_right h1 hpp.le) h2
  have p2 := val_fmul hw ht hR ra fac hprod
  set q0 := fmul trunc ra fac with hq0
  have hq0s : |val f q0| * 2 ^ f < 2 ^ (2 ^ t - 1) := by
    have hX : (R : ℚ) ≤ 2 ^ (2 ^ t - 1) := by exact_mod_cast hR
    have hX4 : ((4 * 2 ^ (2 * f) : ℤ) : ℚ) ≤ R := by exact_mod_cast hR4
    push_cast at hX4
    have hp256 : (256 : ℚ) ≤ 2 ^ f := by
      calc (256 : ℚ) = 2 ^ 8 := by norm_num
        _ ≤ 2 ^ f := pow_le_pow_right₀ (by norm_num) hf8
    have hb2 : |val f q0| ≤ |val f ra * val f fac| + d / 2 ^ f := by
      have e : val f q0 = val f ra * val f fac + (val f q0 - val f ra * val f fac) := by ring
      conv_lhs => rw [e]
      exact (abs_add_le _ _).trans (by linarith)
    have h3 : |val f ra * val f fac| * 2 ^ f * 2 ^ f < R := by rw [mul_assoc, ← pow_add, ← two_mul]; exact hprod
    have hz := abs_nonneg (val f ra * val f fac)
    have h4 : |val f ra * val f fac| * 2 ^ f * 256 ≤ |val f ra * val f fac| * 2 ^ f * 2 ^ f :=
      mul_le_mul_of_nonneg_left hp256 (by positivity)
    have h5 : |val f q0| * 2 ^ f ≤ |val f ra * val f fac| * 2 ^ f + 1 / 256 * 2 ^ f := by
      rw [← add_mul]
      exact mul_le_mul_of_nonneg_right (by linarith) hMq.le
    have h6 : (2 : ℚ) ^ f ≤ 2 ^ (2 * f) := pow_le_pow_right₀ (by norm_num) (by omega)
    linarith
  -- the error of the quotient by the absolute value
  have main : |val f q0 - val f a / (|val f b|)| ≤ |val f a / val f b| *
      (errBound (d / 2 ^ f) n (1 / 10) (d / 2 ^ f) + 4 * (d / 2 ^ f)) + d / 2 ^ f * (1 + 1 / |val f b|) := by
    have e : val f q0 - val f a / |val f b| = (val f a / |val f b|) * (|val f b| * val f fac * val f r - 1) +
        ((val f ra - val f r * val f a) * val f fac + (val f q0 - val f ra * val f fac)) := by
      field_simp
      ring
    rw [e]
    refine (abs_add_le _ _).trans (add_le_add ?_ ((abs_add_le _ _).trans ?_))
    · rw [abs_mul, abs_div, abs_abs, ← abs_div]
      exact mul_le_mul_of_nonneg_left r2 (abs_nonneg _)
    · rw [abs_mul, abs_of_pos f3]
      have : |val f ra - val f r * val f a| * val f fac ≤ d / 2 ^ f * (1 / |val f b|) := mul_le_mul p1 hphi.le f3.le hu0
      linarith
  refine ⟨mux (HalRing.msb b) (-q0) q0, ?_, ?_⟩
  · simp only [FxpDiv.div]
    rw [← hB, hfac]
    simp only [Option.bind_eq_bind, Option.bind_some]
    rw [hr]
    rfl
  · by_cases hneg : b.toInt < 0
    · have hbv : val f b < 0 := by rw [← not_le, val_neg_iff]; omega
      rw [hal_msb hw, c37_mux]
      simp only [hneg, decide_true, if_true]
      have hneg : val f (-q0) = -val f q0 := by
        rw [val_of_eq hw f _ (-q0.toInt)]
        · push_cast; rw [val, neg_div]
        · rw [BitVec.ofInt_neg, ← ofInt_self]
        · push_cast
          rw [abs_neg, ← val_mul_pow f q0, abs_mul, abs_of_pos hMq]
          exact hq0s
      rw [hneg]
      have e : -val f q0 - val f a / val f b = -(val f q0 - val f a / |val f b|) := by
        rw [abs_of_neg hbv, div_neg]; ring
      rw [e, abs_neg]
      exact main
    · have hbv : 0 ≤ val f b := by rw [val_neg_iff]; omega
      rw [hal_msb hw, c37_mux]
      simp only [hneg, decide_false, Bool.false_eq_true, if_false]
      have e : val f a / val f b = val f a / |val f b| := by rw [abs_of_nonneg hbv]
      nth_rewrite 1 [e]
      exact main

/-- C73: the reciprocal, for every truncation with a bounded error. -/
theorem c73_recip (t f d : ℕ) (R : ℤ) (trunc : BitVec (2 ^ t) → BitVec (2 ^ t)) (ht : TruncOk f d R trunc)
    (hf : 2 * f < 2 ^ t) (hf8 : 8 ≤ f) (hR : R ≤ 2 ^ (2 ^ t - 1)) (hR4 : 4 * 2 ^ (2 * f) ≤ R) (hu : (d : ℚ) / 2 ^ f ≤ 1 / 256)
    (cfg n : ℕ) (hn : numIters cfg f = some n) (hnu : (11 / 10 : ℚ) ^ n * (31 * (d / 2 ^ f)) ≤ 1 / 2)
    (b : BitVec (2 ^ t)) (hb0 : val f b ≠ 0) (hb : |val f b| < 2 ^ f) (hq : 4 * 2 ^ (2 * f) < R * |val f b|) :
    ∃ q, FxpDiv.reciprocal trunc f cfg b = some q ∧ |val f q - 1 / val f b| ≤
      1 / |val f b| * (errBound (d / 2 ^ f) n (1 / 10) (d / 2 ^ f) + 4 * (d / 2 ^ f)) + d / 2 ^ f := by
  have hw : 0 < 2 ^ t := by positivity
  have hu0 : (0 : ℚ) ≤ d / 2 ^ f := by positivity
  have hMq : (0 : ℚ) < 2 ^ f := by positivity
  have hbpos : 0 < |val f b| := abs_pos.2 hb0
  have hbi : |b.toInt| < 2 ^ (2 * f) := by
    have : ((|b.toInt| : ℤ) : ℚ) < 2 ^ (2 * f) := by
      push_cast
      rw [← val_mul_pow f b, abs_mul, abs_of_pos hMq, two_mul, pow_add]
      exact mul_lt_mul_of_pos_right hb hMq
    exact_mod_cast this
  have hlt : (2 : ℤ) ^ (2 * f) ≤ 2 ^ (2 ^ t - 1) := pow_le_pow_right₀ (by norm_num) (by omega)
  obtain ⟨hBi, hBv⟩ := babs hw f b (lt_of_lt_of_le hbi hlt)
  have hb0i : b.toInt ≠ 0 := by
    intro h; apply hb0; rw [val, h]; simp
  set B := mux (HalRing.msb b) (-b) b with hB
  obtain ⟨fac, hfac, f1, f2, f3⟩ := factor_val t f hf B (by rw [hBi]; exact abs_pos.2 hb0i) (by rw [hBi]; exact hbi)
  obtain ⟨r, hr, r1, r2⟩ := recipNorm_ok hw ht hR hR4 hf8 hu hn hnu B fac f1 f2
  rw [hBv] at f1 f2 r2
  have hphi : val f fac < 1 / |val f b| := by rw [lt_div_iff₀ hbpos]; linarith
  have hpp : (0 : ℚ) < 2 ^ (2 * f) := by positivity
  have hprod : |val f r * val f fac| * 2 ^ (2 * f) < R := by
    rw [abs_mul, abs_of_pos f3]
    have h1 : |val f r| * val f fac ≤ 4 * (1 / |val f b|) := mul_le_mul r1 hphi.le f3.le (by norm_num)
    have h2 : 4 * (1 / |val f b|) * 2 ^ (2 * f) < R := by
      rw [mul_one_div, div_mul_eq_mul_div, div_lt_iff₀ hbpos]; exact hq
    exact lt_of_le_of_lt (mul_le_mul_of_nonneg_right h1 hpp.le) h2
  have p2 := val_fmul hw ht hR r fac hprod
  set q0 := fmul trunc r fac with hq0
  have hq0s : |val f q0| * 2 ^ f < 2 ^ (2 ^ t - 1) := by
    have hX : (R : ℚ) ≤ 2 ^ (2 ^ t - 1) := by exact_mod_cast hR
    have hX4 : ((4 * 2 ^ (2 * f) : ℤ) : ℚ) ≤ R := by exact_mod_cast hR4
    push_cast at hX4
    have hp256 : (256 : ℚ) ≤ 2 ^ f := by
      calc (256 : ℚ) = 2 ^ 8 := by norm_num
        _ ≤ 2 ^ f := pow_le_pow_right₀ (by norm_num) hf8
    have hb2 : |val f q0| ≤ |val f r * val f fac| + d / 2 ^ f := by
      have e : val f q0 = val f r * val f fac + (val f q0 - val f r * val f fac) := by ring
      conv_lhs => rw [e]
      exact (abs_add_le _ _).trans (by linarith)
    have h3 : |val f r * val f fac| * 2 ^ f * 2 ^ f < R := by rw [mul_assoc, ← pow_add, ← two_mul]; exact hprod
    have hz := abs_nonneg (val f r * val f fac)
    have h4 : |val f r * val f fac| * 2 ^ f * 256 ≤ |val f r * val f fac| * 2 ^ f * 2 ^ f :=
      mul_le_mul_of_nonneg_left hp256 (by positivity)
    have h5 : |val f q0| * 2 ^ f ≤ |val f r * val f fac| * 2 ^ f + 1 / 256 * 2 ^ f := by
      rw [← add_mul]
      exact mul_le_mul_of_nonneg_right (by linarith) hMq.le
    have h6 : (2 : ℚ) ^ f ≤ 2 ^ (2 * f) := pow_le_pow_right₀ (by norm_num) (by omega)
    linarith
  have main : |val f q0 - 1 / (|val f b|)| ≤ 1 / |val f b| *
      (errBound (d / 2 ^ f) n (1 / 10) (d / 2 ^ f) + 4 * (d / 2 ^ f)) + d / 2 ^ f := by
    have e : val f q0 - 1 / |val f b| = (1 / |val f b|) * (|val f b| * val f fac * val f r - 1) +
        (val f q0 - val f r * val f fac) := by
      field_simp
      ring
    rw [e]
    refine (abs_add_le _ _).trans (add_le_add ?_ p2)
    rw [abs_mul, abs_div, abs_abs, abs_one]
    exact mul_le_mul_of_nonneg_left r2 (by positivity)
  refine ⟨mux (HalRing.msb b) (-q0) q0, ?_, ?_⟩
  · simp only [FxpDiv.reciprocal]
    rw [← hB, hfac]
    simp only [Option.bind_eq_bind, Option.bind_some]
    rw [hr]
    rfl
  · by_cases hneg : b.toInt < 0
    · have hbv : val f b < 0 := by rw [← not_le, val_neg_iff]; omega
      rw [hal_msb hw, c37_mux]
      simp only [hneg, decide_true, if_true]
      have hneg : val f (-q0) = -val f q0 := by
        rw [val_of_eq hw f _ (-q0.toInt)]
        · push_cast; rw [val, neg_div]
        · rw [BitVec.ofInt_neg, ← ofInt_self]
        · push_cast
          rw [abs_neg, ← val_mul_pow f q0, abs_mul, abs_of_pos hMq]
          exact hq0s
      rw [hneg]
      have e : -val f q0 - 1 / val f b = -(val f q0 - 1 / |val f b|) := by
        rw [abs_of_neg hbv, div_neg]; ring
      rw [e, abs_neg]
      exact main
    · have hbv : 0 ≤ val f b := by rw [val_neg_iff]; omega
      rw [hal_msb hw, c37_mux]
      simp only [hneg, decide_false, Bool.false_eq_true, if_false]
      have e : 1 / val f b = 1 / |val f b| := by rw [abs_of_nonneg hbv]
      nth_rewrite 1 [e]
      exact main

theorem errBound_two {u : ℚ} (hu0 : 0 ≤ u) (hu : u ≤ 1 / 256) : errBound u 2 (1 / 10) u ≤ 1 / 10000 + 5 * u := by
  show ((1 / 10) ^ 2 + u) ^ 2 + (u * (1 + 1 / 10) + (1 + u) * u + u) * (1 + ((1 / 10) ^ 2 + u)) + (1 + u) * u ≤ _
  have m2 : u * u ≤ 1 / 256 * u := mul_le_mul_of_nonneg_right hu hu0
  have m3 : u * u * u ≤ 1 / 256 * (u * u) := by nlinarith
  nlinarith

theorem errBound_three {u : ℚ} (hu0 : 0 ≤ u) (hu : u ≤ 1 / 1024) : errBound u 3 (1 / 10) u ≤ 1 / 100000000 + 8 * u := by
  show (((1 / 10) ^ 2 + u) ^ 2 + u) ^ 2 + ((u * (1 + 1 / 10) + (1 + u) * u + u) * (1 + ((1 / 10) ^ 2 + u)) + (1 + u) * u + u) *
    (1 + (((1 / 10) ^ 2 + u) ^ 2 + u)) + (1 + u) * u ≤ _
  have m2 : u * u ≤ 1 / 1024 * u := mul_le_mul_of_nonneg_right hu hu0
  have m3 : u ^ 3 ≤ 1 / 1024 * (u * u) := by nlinarith
  have p2 : 0 ≤ u * u := mul_nonneg hu0 hu0
  have p3 : 0 ≤ u ^ 3 := by positivity
  have m4 : u ^ 4 ≤ 1 / 1024 * u ^ 3 := by
    have := mul_le_mul_of_nonneg_right hu p3; rw [pow_succ' u 3]; linarith
  ring_nf
  nlinarith

/-- C73: with the default two iterations the quotient is within a ten-thousandth, plus the errors of truncation. -/
theorem c73_two (t f d : ℕ) (R : ℤ) (trunc : BitVec (2 ^ t) → BitVec (2 ^ t)) (ht : TruncOk f d R trunc)
    (hf : 2 * f < 2 ^ t) (hf8 : 8 ≤ f) (hf30 : f < 30) (hR : R ≤ 2 ^ (2 ^ t - 1)) (hR4 : 4 * 2 ^ (2 * f) ≤ R)
    (hu : (d : ℚ) / 2 ^ f ≤ 1 / 256) (a b : BitVec (2 ^ t)) (hb0 : val f b ≠ 0) (hb : |val f b| < 2 ^ f)
    (ha : 4 * |val f a| * 2 ^ (2 * f) < R) (hq : (4 * |val f a| + d / 2 ^ f) * 2 ^ (2 * f) < R * |val f b|) :
    ∃ q, FxpDiv.div trunc f 2 a b = some q ∧ |val f q - val f a / val f b| ≤
      |val f a / val f b| * (1 / 10000 + 9 * (d / 2 ^ f)) + d / 2 ^ f * (1 + 1 / |val f b|) := by
  have hu0 : (0 : ℚ) ≤ d / 2 ^ f := by positivity
  obtain ⟨q, h1, h2⟩ := c73_div t f d R trunc ht hf hf8 hR hR4 hu 2 2 (by simp [numIters, Nat.not_le.2 hf30]) (by norm_num at hu ⊢; linarith)
    a b hb0 hb ha hq
  refine ⟨q, h1, h2.trans (add_le_add_left (mul_le_mul_of_nonneg_left ?_ (abs_nonneg _)) _)⟩
  have := errBound_two hu0 hu
  linarith

/-- C73: from 30 fraction bits on there are three iterations, and only the errors of truncation remain. -/
theorem c73_three (t f d : ℕ) (R : ℤ) (trunc : BitVec (2 ^ t) → BitVec (2 ^ t)) (ht : TruncOk f d R trunc)
    (hf : 2 * f < 2 ^ t) (hf30 : 30 ≤ f) (hR : R ≤ 2 ^ (2 ^ t - 1)) (hR4 : 4 * 2 ^ (2 * f) ≤ R)
    (hu : (d : ℚ) / 2 ^ f ≤ 1 / 1024) (a b : BitVec (2 ^ t)) (hb0 : val f b ≠ 0) (hb : |val f b| < 2 ^ f)
    (ha : 4 * |val f a| * 2 ^ (2 * f) < R) (hq : (4 * |val f a| + d / 2 ^ f) * 2 ^ (2 * f) < R * |val f b|) :
    ∃ q, FxpDiv.div trunc f 2 a b = some q ∧ |val f q - val f a / val f b| ≤
      |val f a / val f b| * (1 / 100000000 + 12 * (d / 2 ^ f)) + d / 2 ^ f * (1 + 1 / |val f b|) := by
  have hu0 : (0 : ℚ) ≤ d / 2 ^ f := by positivity
  obtain ⟨q, h1, h2⟩ := c73_div t f d R trunc ht hf (by omega) hR hR4 (by linarith) 2 3 (by simp [numIters, hf30])
    (by norm_num at hu ⊢; linarith) a b hb0 hb ha hq
  refine ⟨q, h1, h2.trans (add_le_add_left (mul_le_mul_of_nonneg_left ?_ (abs_nonneg _)) _)⟩
  have := errBound_three hu0 hu
  linarith

/-- C73 (finding): a divisor of `2^f` or more, like zero, gives zero up to the error of truncation, whatever the dividend. -/
theorem c73_large (t f d : ℕ) (R : ℤ) (trunc : BitVec (2 ^ t) → BitVec (2 ^ t)) (ht : TruncOk f d R trunc) (hR0 : 0 < R)
    (hf : 2 * f < 2 ^ t) (hd : (d : ℤ) < 2 ^ (2 ^ t - 1)) (cfg n : ℕ) (hn : numIters cfg f = some n) (a b : BitVec (2 ^ t))
    (hmin : |b.toInt| < 2 ^ (2 ^ t - 1)) (hb : val f b = 0 ∨ 2 ^ f ≤ |val f b|) :
    ∃ q, FxpDiv.div trunc f cfg a b = some q ∧ |val f q| ≤ d / 2 ^ f := by
  have hw : 0 < 2 ^ t := by positivity
  have hMq : (0 : ℚ) < 2 ^ f := by positivity
  obtain ⟨hBi, hBv⟩ := babs hw f b hmin
  set B := mux (HalRing.msb b) (-b) b with hB
  have hfac : normFactor f B = some 0 := by
    refine factor_zero t f hf B ?_
    rcases hb with hb | hb
    · left
      have : b.toInt = 0 := by
        have := val_mul_pow f b; rw [hb, zero_mul] at this; exact_mod_cast this.symm
      rw [this, abs_zero] at hBi
      exact BitVec.toInt_inj.1 (by rw [hBi]; simp)
    · right
      have h1 : (2 : ℤ) ^ (2 * f) ≤ |b.toInt| := by
        have : (2 ^ (2 * f) : ℚ) ≤ ((|b.toInt| : ℤ) : ℚ) := by
          push_cast
          rw [← val_mul_pow f b, abs_mul, abs_of_pos hMq, two_mul, pow_add]
          exact mul_le_mul_of_nonneg_right hb hMq.le
        exact_mod_cast this
      rw [← hBi] at h1
      rw [BitVec.toInt_eq_toNat_cond] at h1
      split at h1
      · exact_mod_cast h1
      · have := B.isLt
        have : (0 : ℤ) < 2 ^ (2 * f) := by positivity
        omega
  have hz : ∀ x : BitVec (2 ^ t), fmul trunc x 0 = trunc 0 := by intro x; rw [fmul, mul_zero]
  have h0 := ht 0 (by simpa using hR0)
  have h0i : |(trunc 0).toInt| ≤ d := by
    have e : ((0 : BitVec (2 ^ t)).toInt) = 0 := by simp
    rw [e, sub_zero, abs_mul, abs_of_pos (by positivity : (0 : ℤ) < 2 ^ f), mul_comm] at h0
    exact le_of_mul_le_mul_right h0 (by positivity)
  have hv : ∀ y : BitVec (2 ^ t), |y.toInt| ≤ d → |val f y| ≤ d / 2 ^ f := by
    intro y hy
    rw [val, abs_div, abs_of_pos hMq]
    exact div_le_div_of_nonneg_right (by exact_mod_cast hy) hMq.le
  refine ⟨mux (HalRing.msb b) (-(trunc 0)) (trunc 0), ?_, ?_⟩
  · simp only [FxpDiv.div]
    rw [← hB, hfac]
    simp only [Option.bind_eq_bind, Option.bind_some, recipNorm, hn, hz]
    rfl
  · rw [hal_msb hw, c37_mux]
    split
    · apply hv
      obtain ⟨l1, l2⟩ := abs_le.1 h0i
      rw [toInt_eq_of hw _ (-(trunc 0).toInt) (by rw [BitVec.ofInt_neg, ← ofInt_self]) (by omega) (by omega), abs_neg]
      exact h0i
    · exact hv _ h0i

/-! ### Integer division -/

theorem mul_sign_abs (hw : 0 < w) (v : BitVec w) : v * sign v = BitVec.ofInt w |v.toInt| := by
  rw [sign_eq hw]
  conv_lhs => lhs; rw [ofInt_self v]
  split
  · rename_i h
    rw [abs_of_neg h, BitVec.ofInt_neg]; ring
  · rename_i h
    rw [abs_of_nonneg (by omega), mul_one]

/-- C73: integer division is exact if the fixed-point quotient is good enough. -/
theorem c73_idiv (t f d : ℕ) (R : ℤ) (trunc : BitVec (2 ^ t) → BitVec (2 ^ t)) (ht : TruncOk f d R trunc)
    (hf : 2 * f < 2 ^ t) (hf8 : 8 ≤ f) (hf31 : f < 31) (hR : R ≤ 2 ^ (2 ^ t - 1)) (hR4 : 4 * 2 ^ (2 * f) ≤ R)
    (hu : (d : ℚ) / 2 ^ f ≤ 1 / 256) (cfg n : ℕ) (hn : numIters cfg f = some n)
    (hnu : (11 / 10 : ℚ) ^ n * (31 * (d / 2 ^ f)) ≤ 1 / 2) (x y : BitVec (2 ^ t)) (hy0 : y.toInt ≠ 0)
    (hy : |y.toInt| < 2 ^ f) (hx : (4 * |x.toInt| + 1) * 2 ^ (2 * f) ≤ R)
    (hgood : (|x.toInt| / |y.toInt| : ℚ) * (errBound (d / 2 ^ f) n (1 / 10) (d / 2 ^ f) + 4 * (d / 2 ^ f)) + 2 * (d / 2 ^ f) < 1) :
    idivSecret trunc f cfg x y = some (BitVec.ofInt _ (Spec.IntPow.intDiv x.toInt y.toInt)) := by
  have hw : 0 < 2 ^ t := by positivity
  have hu0 : (0 : ℚ) ≤ d / 2 ^ f := by positivity
  have hMq : (0 : ℚ) < 2 ^ f := by positivity
  have hX0 := abs_nonneg x.toInt
  have hY0 : 0 < |y.toInt| := abs_pos.2 hy0
  have hp1 : (1 : ℤ) ≤ 2 ^ f := by exact_mod_cast Nat.one_le_two_pow
  have hpf : (2 : ℤ) ^ f ≤ 2 ^ (2 * f) := pow_le_pow_right₀ (by norm_num) (by omega)
  have hpff : (2 : ℤ) ^ f * 2 ^ f = 2 ^ (2 * f) := by rw [← pow_add, two_mul]
  have hXf : |x.toInt| * 2 ^ f < 2 ^ (2 ^ t - 1) := by nlinarith
  have hYf : |y.toInt| * 2 ^ f < 2 ^ (2 ^ t - 1) := by nlinarith
  have hXs : |x.toInt| < 2 ^ (2 ^ t - 1) := by nlinarith
  have hYs : 2 * |y.toInt| ≤ 2 ^ (2 ^ t - 1) := by nlinarith
  have hXi : (BitVec.ofInt (2 ^ t) |x.toInt|).toInt = |x.toInt| := toInt_eq_of hw _ _ rfl (by omega) hXs
  have hYi : (BitVec.ofInt (2 ^ t) |y.toInt|).toInt = |y.toInt| := toInt_eq_of hw _ _ rfl (by omega) (by omega)
  have hXv : val f (int2fxp f (BitVec.ofInt (2 ^ t) |x.toInt|)) = |x.toInt| := by
    rw [c72_int2fxp hw f _ (by rw [hXi]; nlinarith) (by rw [hXi]; exact hXf), hXi]
  have hYv : val f (int2fxp f (BitVec.ofInt (2 ^ t) |y.toInt|)) = |y.toInt| := by
    rw [c72_int2fxp hw f _ (by rw [hYi]; nlinarith) (by rw [hYi]; exact hYf), hYi]
  have hXq : (0 : ℚ) ≤ ((|x.toInt| : ℤ) : ℚ) := by exact_mod_cast hX0
  have hYq : (1 : ℚ) ≤ ((|y.toInt| : ℤ) : ℚ) := by exact_mod_cast hY0
  have hYq0 : (0 : ℚ) ≤ ((|y.toInt| : ℤ) : ℚ) := by exact_mod_cast hY0.le
  have hxq : (4 * ((|x.toInt| : ℤ) : ℚ) + 1) * 2 ^ (2 * f) ≤ R := by exact_mod_cast hx
  have hpp : (0 : ℚ) < 2 ^ (2 * f) := by positivity
  have hxs : (4 * ((|x.toInt| : ℤ) : ℚ) + d / 2 ^ f) * 2 ^ (2 * f) < R := by nlinarith
  obtain ⟨q, hq, herr⟩ := c73_div t f d R trunc ht hf hf8 hR hR4 hu cfg n hn hnu (int2fxp f (BitVec.ofInt (2 ^ t) |x.toInt|))
    (int2fxp f (BitVec.ofInt (2 ^ t) |y.toInt|)) (by rw [hYv]; intro h; linarith)
    (by rw [hYv, abs_of_nonneg hYq0]; exact_mod_cast hy)
    (by rw [hXv, abs_of_nonneg hXq]; linarith)
    (by
      rw [hXv, hYv, abs_of_nonneg hXq, abs_of_nonneg hYq0]
      have h1 : (0 : ℚ) ≤ (4 * ((|x.toInt| : ℤ) : ℚ) + d / 2 ^ f) * 2 ^ (2 * f) := by positivity
      exact lt_of_lt_of_le hxs (le_mul_of_one_le_right (h1.trans hxs.le) hYq))
  rw [hXv, hYv] at herr
  rw [abs_of_nonneg (by positivity : (0 : ℚ) ≤ ((|x.toInt| : ℤ) : ℚ) / ((|y.toInt| : ℤ) : ℚ)),
    abs_of_nonneg (by linarith : (0 : ℚ) ≤ ((|y.toInt| : ℤ) : ℚ))] at herr
  push_cast at herr hYq hXq hgood
  obtain ⟨z, hz, hzt⟩ := c72_fxp2int f hf31 (by omega) q
  have hinv : 1 / |(y.toInt : ℚ)| ≤ 1 := by rw [div_le_one (by linarith)]; exact hYq
  have hlt : |val f q - |(x.toInt : ℚ)| / (|(y.toInt : ℚ)|)| < 1 := by
    have : (d : ℚ) / 2 ^ f * (1 + 1 / |(y.toInt : ℚ)|) ≤ d / 2 ^ f * 2 := mul_le_mul_of_nonneg_left (by linarith) hu0
    linarith
  simp only [idivSecret, approxQ]
  rw [mul_sign_abs hw, mul_sign_abs hw, hq]
  simp only [Option.bind_eq_bind, Option.bind_some]
  rw [hz]
  simp only [Option.bind_some, Option.pure_def, Option.some.injEq]
  -- the integer quotient
  have hfl1 : ((|x.toInt| / |y.toInt| : ℤ) : ℚ) ≤ |(x.toInt : ℚ)| / |(y.toInt : ℚ)| := by
    rw [le_div_iff₀ (by linarith)]
    have := Int.ediv_mul_le |x.toInt| hY0.ne'
    exact_mod_cast this
  have hfl2 : |(x.toInt : ℚ)| / |(y.toInt : ℚ)| < ((|x.toInt| / |y.toInt| : ℤ) : ℚ) + 1 := by
    rw [div_lt_iff₀ (by linarith)]
    have := Int.lt_ediv_add_one_mul_self |x.toInt| hY0
    exact_mod_cast this
  have hQ0 : 0 ≤ |x.toInt| / |y.toInt| := Int.ediv_nonneg hX0 hY0.le
  obtain ⟨l1, l2⟩ := abs_lt.1 hlt
  have hbd : |x.toInt| / |y.toInt| - 1 ≤ z.toInt ∧ z.toInt ≤ |x.toInt| / |y.toInt| + 1 := by
    generalize |x.toInt| / |y.toInt| = Q at *
    by_cases hqs : 0 ≤ val f q
    · obtain ⟨z1, z2⟩ := (towardZero_bounds hzt).1 hqs
      have a1 : ((z.toInt : ℤ) : ℚ) < ((Q + 2 : ℤ) : ℚ) := by push_cast; linarith
      have a2 : ((Q - 2 : ℤ) : ℚ) < ((z.toInt : ℤ) : ℚ) := by push_cast; linarith
      have a1 : z.toInt < Q + 2 := by exact_mod_cast a1
      have a2 : Q - 2 < z.toInt := by exact_mod_cast a2
      omega
    · obtain ⟨z1, z2⟩ := (towardZero_bounds hzt).2 (by linarith)
      have hQq : (0 : ℚ) ≤ Q := by exact_mod_cast hQ0
      have a1 : ((z.toInt : ℤ) : ℚ) < ((1 : ℤ) : ℚ) := by push_cast; linarith
      have a2 : ((-1 : ℤ) : ℚ) < ((z.toInt : ℤ) : ℚ) := by push_cast; linarith
      have a3 : ((Q : ℤ) : ℚ) < ((1 : ℤ) : ℚ) := by push_cast; linarith
      have a1 : z.toInt < 1 := by exact_mod_cast a1
      have a2 : -1 < z.toInt := by exact_mod_cast a2
      have a3 : Q < 1 := by exact_mod_cast a3
      omega
  exact c71_idiv hw (fun _ _ => z) x y (by intro h; rw [h] at hXs; rw [abs_neg, abs_of_pos (by positivity)] at hXs; omega) hy0 hYs
    hbd.1 hbd.2

/-- exact truncation (an arithmetic shift) has an error below one unit -/
theorem truncOk_sar (f : ℕ) (R : ℤ) : TruncOk f 1 R (fun v : BitVec w => v.sshiftRight f) := by
  intro v _
  have hM : (0 : ℤ) < 2 ^ f := by positivity
  have e : (v.sshiftRight f).toInt = v.toInt / 2 ^ f := by
    rw [BitVec.toInt_sshiftRight, Int.shiftRight_eq_div_pow]; norm_cast
  rw [e]
  have h1 := Int.mul_ediv_add_emod v.toInt (2 ^ f)
  have h2 := Int.emod_nonneg v.toInt hM.ne'
  have h3 := Int.emod_lt_of_pos v.toInt hM
  rw [abs_le]
  push_cast
  constructor <;> linarith

/-- C73: in FM64 with the default 18 fraction bits and truncation within one unit, secret integer division is exact for
divisors below `2^18`, dividends below `2^24` and quotients up to 7000. -/
theorem c73_idiv_default (trunc : BitVec 64 → BitVec 64) (ht : TruncOk 18 1 (2 ^ 62) trunc) (x y : BitVec 64) (hy0 : y.toInt ≠ 0)
    (hy : |y.toInt| < 2 ^ 18) (hx : |x.toInt| < 2 ^ 24) (hq : |x.toInt| ≤ 7000 * |y.toInt|) :
    idivSecret trunc 18 2 x y = some (BitVec.ofInt _ (Spec.IntPow.intDiv x.toInt y.toInt)) := by
  have hY : 0 < |y.toInt| := abs_pos.2 hy0
  have hYq : (0 : ℚ) < |(y.toInt : ℚ)| := by exact_mod_cast hY
  have hqq : |(x.toInt : ℚ)| / |(y.toInt : ℚ)| ≤ 7000 := by
    rw [div_le_iff₀ hYq]; exact_mod_cast hq
  have hb := errBound_two (u := (1 : ℕ) / 2 ^ 18) (by norm_num) (by norm_num)
  refine c73_idiv 6 18 1 (2 ^ 62) trunc ht (by norm_num) (by norm_num) (by norm_num) (by norm_num) (by norm_num) (by norm_num) 2 2
    (by simp [numIters]) (by norm_num) x y hy0 hy ?_ ?_
  · norm_num; omega
  · push_cast at hb ⊢
    have h0 : (0 : ℚ) ≤ |(x.toInt : ℚ)| / |(y.toInt : ℚ)| := by positivity
    have h1 : |(x.toInt : ℚ)| / |(y.toInt : ℚ)| * (errBound (1 / 2 ^ 18) 2 (1 / 10) (1 / 2 ^ 18) + 4 * (1 / 2 ^ 18)) ≤
        7000 * (1 / 10000 + 5 * (1 / 2 ^ 18) + 4 * (1 / 2 ^ 18)) := by
      refine mul_le_mul hqq (by linarith) ?_ (by norm_num)
      have := (errBound_le (u := 1 / 2 ^ 18) (by norm_num) (by norm_num) 1 (1 / 10) (1 / 2 ^ 18) (by norm_num) le_rfl (by norm_num)
        (by norm_num)).1
      have e : (4 : ℚ) * (1 / 2 ^ 18) = 1 / 2 ^ 16 := by norm_num
      have : (0 : ℚ) ≤ 1 / 2 ^ 16 := by norm_num
      linarith
    norm_num at h1 ⊢
    linarith

/-- C73 (finding): beyond these bounds integer division is wrong in FM64 with the defaults and exact truncation: 600000 by
300000 (a divisor of at least `2^18`) is 1, and 1000000 by 3 is 333328. -/
theorem c73_idiv_wrong :
    idivSecret (fun v : BitVec 64 => v.sshiftRight 18) 18 2 600000 300000 = some 1 ∧
      idivSecret (fun v : BitVec 64 => v.sshiftRight 18) 18 2 1000000 3 = some 333328 := by
  decide +kernel

/-! ### Examples -/

example : idivSecret (fun v : BitVec 64 => v.sshiftRight 18) 18 2 (-100000) 77 = some (-1298) := by
  rw [c73_idiv_default _ (truncOk_sar 18 _) _ _ (by decide) (by decide) (by decide) (by decide)]; decide

/-- the hypotheses of the error bound hold for 1000 / -3 -/
example : ∃ q, FxpDiv.div (fun v : BitVec 64 => v.sshiftRight 18) 18 2 (BitVec.ofInt 64 (1000 * 2 ^ 18)) (BitVec.ofInt 64 (-3 * 2 ^ 18))
    = some q ∧ |val 18 q - 1000 / (-3)| ≤ 1000 / 3 * (1 / 10000 + 9 * (1 / 2 ^ 18)) + 1 / 2 ^ 18 * (1 + 1 / 3) := by
  have ea : val 18 (BitVec.ofInt 64 (1000 * 2 ^ 18)) = 1000 := by
    rw [val, show (BitVec.ofInt 64 (1000 * 2 ^ 18)).toInt = 1000 * 2 ^ 18 by decide]; norm_num
  have eb : val 18 (BitVec.ofInt 64 (-3 * 2 ^ 18)) = -3 := by
    rw [val, show (BitVec.ofInt 64 (-3 * 2 ^ 18)).toInt = -3 * 2 ^ 18 by decide]; norm_num
  have := c73_two 6 18 1 (2 ^ 62) (fun v : BitVec 64 => v.sshiftRight 18) (truncOk_sar 18 _) (by norm_num) (by norm_num) (by norm_num)
    (by norm_num) (by norm_num) (by norm_num) (BitVec.ofInt 64 (1000 * 2 ^ 18)) (BitVec.ofInt 64 (-3 * 2 ^ 18)) (by rw [eb]; norm_num)
    (by rw [eb]; norm_num) (by rw [ea]; norm_num) (by rw [ea, eb]; norm_num)
  rw [ea, eb] at this
  norm_num at this ⊢
  exact this

/-- 1 / 300000 (and 2 / 300000, ...) is zero -/
example : FxpDiv.div (fun v : BitVec 64 => v.sshiftRight 18) 18 2 (BitVec.ofInt 64 (20000000 * 2 ^ 18))
    (BitVec.ofInt 64 (300000 * 2 ^ 18)) = some 0 := by decide +kernel

/-- the hypotheses for the reciprocal hold for -1/4 -/
example : ∃ q, FxpDiv.reciprocal (fun v : BitVec 64 => v.sshiftRight 18) 18 2 (BitVec.ofInt 64 (-(2 ^ 16))) = some q ∧
    |val 18 q + 4| ≤ 4 * (1 / 10000 + 9 * (1 / 2 ^ 18)) + 1 / 2 ^ 18 := by
  have eb : val 18 (BitVec.ofInt 64 (-(2 ^ 16))) = -1 / 4 := by
    rw [val, show (BitVec.ofInt 64 (-(2 ^ 16))).toInt = -(2 ^ 16) by decide]; norm_num
  obtain ⟨q, h1, h2⟩ := c73_recip 6 18 1 (2 ^ 62) (fun v : BitVec 64 => v.sshiftRight 18) (truncOk_sar 18 _) (by norm_num) (by norm_num)
    (by norm_num) (by norm_num) (by norm_num) 2 2 (by simp [numIters]) (by norm_num) (BitVec.ofInt 64 (-(2 ^ 16))) (by rw [eb]; norm_num)
    (by rw [eb]; norm_num) (by rw [eb]; norm_num)
  refine ⟨q, h1, ?_⟩
  have hb := errBound_two (u := (1 : ℕ) / 2 ^ 18) (by norm_num) (by norm_num)
  rw [eb] at h2
  have e : val 18 q + 4 = val 18 q - 1 / (-1 / 4) := by norm_num
  rw [e]
  refine h2.trans ?_
  have e2 : 1 / |(-1 / 4 : ℚ)| = 4 := by norm_num
  rw [e2]
  push_cast at hb ⊢
  linarith

end Spu.Props

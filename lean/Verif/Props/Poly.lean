import Verif.Model.PolyApprox
import Verif.Props.FxpDiv
import Verif.Props.ExpTaylor

set_option autoImplicit false

/-! # C90: polynomials of fixed-point numbers -/

namespace Spu.Props
open Spu.Model Spu.Model.HalRing Spu.Model.FxpDiv Spu.Model.ExpApprox Spu.Model.PolyApprox Spu.Spec.Rounding Spu.Spec.FxpDiv

variable {w : ℕ}

/-- the list holds the powers of `X`, which is at most `M`, with the errors of that many products -/
def PowOk (f : ℕ) (δ M X : ℚ) (l : List (BitVec w)) : Prop :=
  ∀ i < l.length, |val f (l.getD i 0) - X ^ (i + 1)| ≤ M ^ (i + 1) * ((1 + δ) ^ i - 1)

theorem getD_append_left' {α : Type*} (l r : List α) (i : ℕ) (d : α) (h : i < l.length) : (l ++ r).getD i d = l.getD i d := by
  rw [List.getD_eq_getElem?_getD, List.getElem?_append_left h, ← List.getD_eq_getElem?_getD]

theorem powStep_length (T : ℕ → BitVec w → BitVec w) (f deg : ℕ) (l : List (BitVec w)) :
    (powStep T f deg l).length = l.length + min l.length (deg - l.length) := by
  simp [powStep]

theorem powStep_ok (hw : 0 < w) {f d deg : ℕ} {R : ℤ} {T : ℕ → BitVec w → BitVec w} (ht : TruncOk f d R (T f)) (hR : R ≤ 2 ^ (w - 1))
    (X M : ℚ) (hM : 1 ≤ M) (hX : |X| ≤ M) (hH : M ^ deg * (1 + (d : ℚ) / 2 ^ f) ^ deg * 2 ^ (2 * f) < R) (l : List (BitVec w))
    (hl0 : 0 < l.length) (hl : PowOk f (d / 2 ^ f) M X l) : PowOk f (d / 2 ^ f) M X (powStep T f deg l) := by
  set δ : ℚ := (d : ℚ) / 2 ^ f with hδ
  have hδ0 : 0 ≤ δ := by rw [hδ]; positivity
  have h1 : (1 : ℚ) ≤ 1 + δ := by linarith
  have hXp : ∀ n, |X ^ n| ≤ M ^ n := fun n => by rw [abs_pow]; exact pow_le_pow_left₀ (abs_nonneg _) hX n
  intro i hi
  rw [powStep_length] at hi
  by_cases h : i < l.length
  · rw [powStep, getD_append_left' _ _ _ _ h]
    exact hl i h
  · obtain ⟨j, rfl⟩ : ∃ j, i = l.length + j := ⟨i - l.length, by omega⟩
    have hj : j < min l.length (deg - l.length) := by omega
    have e : (powStep T f deg l).getD (l.length + j) 0 = fmul (T f) (l.getD j 0) (l.getD (l.length - 1) 0) := by
      rw [powStep, List.getD_eq_getElem?_getD, List.getElem?_append_right (by omega), Nat.add_sub_cancel_left, List.getElem?_map,
        List.getElem?_take, if_pos hj, List.getD_eq_getElem?_getD, List.getElem?_eq_getElem (by omega : j < l.length)]
      simp only [Option.map_some, Option.getD_some]
      rw [List.getLastD_eq_getLast?, List.getLast?_eq_getElem?, ← List.getD_eq_getElem?_getD]
    rw [e]
    set a := l.getD j 0
    set b := l.getD (l.length - 1) 0
    have ha := hl j (by omega)
    have hb := hl (l.length - 1) (by omega)
    rw [show l.length - 1 + 1 = l.length by omega] at hb
    set A := (1 + δ) ^ j with hA
    set B := (1 + δ) ^ (l.length - 1) with hB
    have hA1 : 1 ≤ A := one_le_pow₀ h1
    have hB1 : 1 ≤ B := one_le_pow₀ h1
    have hx := hXp (j + 1)
    have hy := hXp l.length
    set U := M ^ (j + 1) with hU
    set V := M ^ l.length with hV
    have hU1 : 1 ≤ U := one_le_pow₀ hM
    have hV1 : 1 ≤ V := one_le_pow₀ hM
    have hba : |val f b| ≤ V * B := by
      have := abs_add_le (val f b - X ^ l.length) (X ^ l.length)
      rw [sub_add_cancel] at this; linarith
    have haa : |val f a| ≤ U * A := by
      have := abs_add_le (val f a - X ^ (j + 1)) (X ^ (j + 1))
      rw [sub_add_cancel] at this; linarith
    have hAB : A * B = (1 + δ) ^ (j + (l.length - 1)) := by rw [hA, hB, ← pow_add]
    have hABdeg : A * B ≤ (1 + δ) ^ deg := by rw [hAB]; exact pow_le_pow_right₀ h1 (by omega)
    have hUV : U * V = M ^ (l.length + j + 1) := by rw [hU, hV, ← pow_add]; congr 1; omega
    have hUVdeg : U * V ≤ M ^ deg := by rw [hUV]; exact pow_le_pow_right₀ hM (by omega)
    have hUV1 : 1 ≤ U * V := one_le_mul_of_one_le_of_one_le hU1 hV1
    have hAB1 : 1 ≤ A * B := one_le_mul_of_one_le_of_one_le hA1 hB1
    have hm := val_fmul hw ht hR a b (by
      refine lt_of_le_of_lt (mul_le_mul_of_nonneg_right ?_ (by positivity)) hH
      rw [abs_mul]
      refine (mul_le_mul haa hba (abs_nonneg _) (by positivity)).trans ?_
      rw [show U * A * (V * B) = U * V * (A * B) by ring]
      exact mul_le_mul hUVdeg hABdeg (by linarith) (by positivity))
    have hprod : |val f a * val f b - X ^ (j + 1) * X ^ l.length| ≤ U * V * (A * B - 1) := by
      have e2 : val f a * val f b - X ^ (j + 1) * X ^ l.length = (val f a - X ^ (j + 1)) * val f b + X ^ (j + 1) * (val f b - X ^ l.length) := by ring
      rw [e2]
      refine (abs_add_le _ _).trans ?_
      rw [abs_mul, abs_mul]
      have p1 := mul_le_mul ha hba (abs_nonneg _) (mul_nonneg (by linarith) (by linarith))
      have p2 := mul_le_mul hx hb (abs_nonneg _) (by linarith)
      refine (add_le_add p1 p2).trans (le_of_eq ?_)
      ring
    have hlast : U * V * (A * B - 1) + δ ≤ U * V * ((1 + δ) ^ (l.length + j) - 1) := by
      have e3 : (1 + δ) ^ (l.length + j) = A * B * (1 + δ) := by rw [hAB, ← pow_succ]; congr 1; omega
      rw [e3]
      have : 1 * δ ≤ (U * V) * (A * B) * δ := mul_le_mul_of_nonneg_right (one_le_mul_of_one_le_of_one_le hUV1 hAB1) hδ0
      linarith
    have hfin := abs_add_le (val f (fmul (T f) a b) - val f a * val f b) (val f a * val f b - X ^ (j + 1) * X ^ l.length)
    have eX : X ^ (j + 1) * X ^ l.length = X ^ (l.length + j + 1) := by rw [← pow_add]; congr 1; omega
    rw [sub_add_sub_cancel] at hfin
    rw [eX] at hfin hprod
    rw [← hUV]
    linarith

theorem powers_ok (hw : 0 < w) {f d deg : ℕ} (hdeg : 0 < deg) {R : ℤ} {T : ℕ → BitVec w → BitVec w} (ht : TruncOk f d R (T f))
    (hR : R ≤ 2 ^ (w - 1)) (x : BitVec w) (M : ℚ) (hM : 1 ≤ M) (hX : |val f x| ≤ M)
    (hH : M ^ deg * (1 + (d : ℚ) / 2 ^ f) ^ deg * 2 ^ (2 * f) < R) :
    (powers T f deg x).length = deg ∧ PowOk f (d / 2 ^ f) M (val f x) (powers T f deg x) := by
  have key : ∀ n, ((powStep T f deg)^[n] [x]).length = min (2 ^ n) deg ∧ PowOk f (d / 2 ^ f) M (val f x) ((powStep T f deg)^[n] [x]) := by
    intro n
    induction n with
    | zero =>
      refine ⟨by simp; omega, fun i hi => ?_⟩
      simp only [Function.iterate_zero, id_eq, List.length_cons, List.length_nil] at hi
      obtain rfl : i = 0 := by omega
      simp
    | succ n ih =>
      obtain ⟨ih1, ih2⟩ := ih
      rw [Function.iterate_succ_apply']
      have hp : 0 < 2 ^ n := by positivity
      refine ⟨?_, powStep_ok hw ht hR _ M hM hX hH _ (by rw [ih1]; omega) ih2⟩
      rw [powStep_length, ih1, pow_succ]; omega
  obtain ⟨k1, k2⟩ := key (Nat.clog 2 deg)
  exact ⟨by rw [powers, k1, min_eq_right (Nat.le_pow_clog (by norm_num) _)], k2⟩

theorem val_trunc_exact {f d : ℕ} {R : ℤ} {T : ℕ → BitVec w → BitVec w} (ht : TruncOk f d R (T f)) (v : BitVec w) (hv : |v.toInt| < R) :
    |val f (T f v) - (v.toInt : ℚ) / 2 ^ (2 * f)| ≤ d / 2 ^ f := by
  have := val_trunc (f := f) ht v hv
  rw [val] at this
  rw [two_mul, pow_add, ← div_div]; exact this

/-- C90: the polynomial is within the errors of the powers, weighted with the coefficients, and of one truncation. -/
theorem c90_polynomial (hw : 0 < w) {f d : ℕ} {R : ℤ} {T : ℕ → BitVec w → BitVec w} (ht : TruncOk f d R (T f)) (hR : R ≤ 2 ^ (w - 1))
    (x c : BitVec w) (cs : List (BitVec w)) (hcs : cs ≠ []) (M : ℚ) (hM : 1 ≤ M) (hX : |val f x| ≤ M)
    (hH : (1 + |val f c| + ∑ i ∈ Finset.range cs.length, |val f (cs.getD i 0)|) *
      (M ^ cs.length * (1 + (d : ℚ) / 2 ^ f) ^ cs.length) * 2 ^ (2 * f) < R) :
    ∃ r, polynomial T f x (c :: cs) = some r ∧
      |val f r - (val f c + ∑ i ∈ Finset.range cs.length, val f (cs.getD i 0) * val f x ^ (i + 1))| ≤
        d / 2 ^ f + ∑ i ∈ Finset.range cs.length, |val f (cs.getD i 0)| * (M ^ (i + 1) * ((1 + (d : ℚ) / 2 ^ f) ^ i - 1)) := by
  have hlen : 0 < cs.length := List.length_pos_iff.2 hcs
  have hpf : (0 : ℚ) < 2 ^ f := by positivity
  have hRq : (R : ℚ) ≤ 2 ^ (w - 1) := by exact_mod_cast hR
  set δ : ℚ := (d : ℚ) / 2 ^ f with hδ
  have hδ0 : 0 ≤ δ := by rw [hδ]; positivity
  have h1 : (1 : ℚ) ≤ 1 + δ := by linarith
  set S := ∑ i ∈ Finset.range cs.length, |val f (cs.getD i 0)| with hS
  have hS0 : 0 ≤ S := Finset.sum_nonneg fun _ _ => abs_nonneg _
  set P := M ^ cs.length * (1 + δ) ^ cs.length with hP
  have hP1 : 1 ≤ P := one_le_mul_of_one_le_of_one_le (one_le_pow₀ hM) (one_le_pow₀ h1)
  have hpp : (0 : ℚ) < 2 ^ (2 * f) := by positivity
  have hpow : P * 2 ^ (2 * f) < R := by
    refine lt_of_le_of_lt ?_ hH
    have : 0 ≤ (|val f c| + S) * P := by positivity
    nlinarith
  obtain ⟨l1, l2⟩ := powers_ok hw hlen ht hR x M hM hX hpow
  have hpoly : polynomial T f x (c :: cs) = some (T f ((List.range cs.length).foldl
      (fun res i => res + (powers T f cs.length x).getD i 0 * cs.getD i 0) (kOne w f * c))) := by
    cases cs with
    | nil => exact absurd rfl hcs
    | cons a b => rfl
  set pre := powers T f cs.length x with hpre
  -- the sum as an integer
  have hfold : ∀ n, (List.range n).foldl (fun res i => res + pre.getD i 0 * cs.getD i 0) (kOne w f * c) =
      BitVec.ofInt w (2 ^ f * c.toInt + ∑ i ∈ Finset.range n, (pre.getD i 0).toInt * (cs.getD i 0).toInt) := by
    intro n
    induction n with
    | zero =>
      simp only [List.range_zero, List.foldl_nil, Finset.range_zero, Finset.sum_empty, add_zero]
      rw [BitVec.ofInt_mul, ← ofInt_self, kOne, ← BitVec.ofInt_natCast]; push_cast; rfl
    | succ n ih =>
      rw [List.range_succ, List.foldl_append, ih]
      simp only [List.foldl_cons, List.foldl_nil]
      rw [Finset.sum_range_succ, ← add_assoc, BitVec.ofInt_add _ ((pre.getD n 0).toInt * _), BitVec.ofInt_mul, ← ofInt_self, ← ofInt_self]
  set v := (List.range cs.length).foldl (fun res i => res + pre.getD i 0 * cs.getD i 0) (kOne w f * c) with hv
  set z : ℤ := 2 ^ f * c.toInt + ∑ i ∈ Finset.range cs.length, (pre.getD i 0).toInt * (cs.getD i 0).toInt with hz
  have hvz : v = BitVec.ofInt w z := hfold _
  have hzq : (z : ℚ) = (val f c + ∑ i ∈ Finset.range cs.length, val f (cs.getD i 0) * val f (pre.getD i 0)) * 2 ^ (2 * f) := by
    rw [hz]; push_cast
    rw [add_mul, Finset.sum_mul]
    congr 1
    · rw [← val_mul_pow f c, two_mul, pow_add]; ring
    · refine Finset.sum_congr rfl fun i _ => ?_
      rw [← val_mul_pow f (pre.getD i 0), ← val_mul_pow f (cs.getD i 0), two_mul, pow_add]; ring
  have hpi : ∀ i ∈ Finset.range cs.length, |val f (pre.getD i 0) - val f x ^ (i + 1)| ≤ M ^ (i + 1) * ((1 + δ) ^ i - 1) := fun i hi =>
    l2 i (by rw [l1]; exact Finset.mem_range.1 hi)
  have hpb : ∀ i ∈ Finset.range cs.length, |val f (pre.getD i 0)| ≤ P := fun i hi => by
    have a := hpi i hi
    have b : |val f x ^ (i + 1)| ≤ M ^ (i + 1) := by rw [abs_pow]; exact pow_le_pow_left₀ (abs_nonneg _) hX _
    have e := abs_add_le (val f (pre.getD i 0) - val f x ^ (i + 1)) (val f x ^ (i + 1))
    rw [sub_add_cancel] at e
    have : M ^ (i + 1) * (1 + δ) ^ i ≤ P := mul_le_mul (pow_le_pow_right₀ hM (Finset.mem_range.1 hi))
      (pow_le_pow_right₀ h1 (Finset.mem_range.1 hi).le) (by positivity) (by positivity)
    linarith
  have hzb : |(z : ℚ)| < R := by
    rw [hzq, abs_mul, abs_of_pos hpp]
    refine lt_of_le_of_lt (mul_le_mul_of_nonneg_right ?_ hpp.le) hH
    have s1 : |∑ i ∈ Finset.range cs.length, val f (cs.getD i 0) * val f (pre.getD i 0)| ≤ S * P := by
      refine (Finset.abs_sum_le_sum_abs _ _).trans ?_
      rw [hS, Finset.sum_mul]
      refine Finset.sum_le_sum fun i hi => ?_
      rw [abs_mul]
      exact mul_le_mul_of_nonneg_left (hpb i hi) (abs_nonneg _)
    have := abs_add_le (val f c) (∑ i ∈ Finset.range cs.length, val f (cs.getD i 0) * val f (pre.getD i 0))
    have h2 : |val f c| ≤ |val f c| * P := le_mul_of_one_le_right (abs_nonneg _) hP1
    nlinarith
  have hzi : |z| < R := by exact_mod_cast hzb
  have hvi : v.toInt = z := by
    have := abs_lt.1 (hzi.trans_le hR)
    exact toInt_eq_of hw v z hvz (by omega) this.2
  have htr := val_trunc_exact ht v (by rw [hvi]; exact hzi)
  rw [hvi, hzq, mul_div_cancel_right₀ _ hpp.ne'] at htr
  refine ⟨T f v, hpoly, ?_⟩
  have hs : |(val f c + ∑ i ∈ Finset.range cs.length, val f (cs.getD i 0) * val f (pre.getD i 0)) -
      (val f c + ∑ i ∈ Finset.range cs.length, val f (cs.getD i 0) * val f x ^ (i + 1))| ≤
      ∑ i ∈ Finset.range cs.length, |val f (cs.getD i 0)| * (M ^ (i + 1) * ((1 + δ) ^ i - 1)) := by
    rw [add_sub_add_left_eq_sub, ← Finset.sum_sub_distrib]
    refine (Finset.abs_sum_le_sum_abs _ _).trans (Finset.sum_le_sum fun i hi => ?_)
    rw [← mul_sub, abs_mul]
    exact mul_le_mul_of_nonneg_left (hpi i hi) (abs_nonneg _)
  have := abs_add_le (val f (T f v) - (val f c + ∑ i ∈ Finset.range cs.length, val f (cs.getD i 0) * val f (pre.getD i 0)))
    ((val f c + ∑ i ∈ Finset.range cs.length, val f (cs.getD i 0) * val f (pre.getD i 0)) -
      (val f c + ∑ i ∈ Finset.range cs.length, val f (cs.getD i 0) * val f x ^ (i + 1)))
  rw [sub_add_sub_cancel] at this
  linarith

/-- one coefficient is returned as it is, none is an error -/
theorem c90_polynomial_short (T : ℕ → BitVec w → BitVec w) (f : ℕ) (x c : BitVec w) :
    polynomial T f x [c] = some c ∧ polynomial T f x [] = none := ⟨rfl, rfl⟩

/-- an encoded constant is below in magnitude, by less than a unit -/
theorem val_encZ (hw : 0 < w) (f : ℕ) (m : ℤ) (s : ℕ) (h : |m| * 2 ^ f < 2 ^ (w - 1) * 2 ^ s) :
    |val f (encZ w f m s) - m / 2 ^ s| ≤ 1 / 2 ^ f ∧ |val f (encZ w f m s)| ≤ |(m : ℚ)| / 2 ^ s := by
  have hpf : (0 : ℚ) < 2 ^ f := by positivity
  have hps : (0 : ℚ) < 2 ^ s := by positivity
  have hsz : (0 : ℤ) < 2 ^ s := by positivity
  have hfz : (0 : ℤ) < 2 ^ f := by positivity
  -- a natural number
  have hnat : ∀ n : ℤ, 0 ≤ n → n * 2 ^ f < 2 ^ (w - 1) * 2 ^ s → ∃ q : ℤ, (n * 2 ^ f).tdiv (2 ^ s) = q ∧ 0 ≤ q ∧ q < 2 ^ (w - 1) ∧
      (q : ℚ) / 2 ^ f ≤ n / 2 ^ s ∧ (n : ℚ) / 2 ^ s - 1 / 2 ^ f ≤ q / 2 ^ f := by
    intro n hn hlt
    have h0 : 0 ≤ n * 2 ^ f := by positivity
    refine ⟨n * 2 ^ f / 2 ^ s, Int.tdiv_eq_ediv_of_nonneg h0, Int.ediv_nonneg h0 hsz.le, Int.ediv_lt_of_lt_mul hsz hlt, ?_, ?_⟩
    · rw [div_le_div_iff₀ hpf hps]
      exact_mod_cast Int.ediv_mul_le (n * 2 ^ f) hsz.ne'
    · have := Int.lt_ediv_add_one_mul_self (n * 2 ^ f) hsz
      have : ((n * 2 ^ f : ℤ) : ℚ) < (((n * 2 ^ f / 2 ^ s + 1) * 2 ^ s : ℤ) : ℚ) := by exact_mod_cast this
      rw [sub_le_iff_le_add, ← add_div, div_le_div_iff₀ hps hpf]
      push_cast at this ⊢
      linarith
  rcases le_total 0 m with hm | hm
  · rw [abs_of_nonneg hm] at h
    obtain ⟨q, e, q0, q1, q2, q3⟩ := hnat m hm h
    have hv : val f (encZ w f m s) = q / 2 ^ f := by
      rw [val, encZ, e, toInt_eq_of hw _ q rfl (by omega) q1]
    have hq0 : 0 ≤ (q : ℚ) / 2 ^ f := div_nonneg (by exact_mod_cast q0) hpf.le
    rw [hv, abs_of_nonneg (by exact_mod_cast hm : (0 : ℚ) ≤ m), abs_of_nonneg hq0, abs_le]
    have : (0 : ℚ) < 1 / 2 ^ f := by positivity
    exact ⟨⟨by linarith, by linarith⟩, q2⟩
  · rw [abs_of_nonpos hm] at h
    obtain ⟨q, e, q0, q1, q2, q3⟩ := hnat (-m) (by omega) h
    rw [neg_mul, Int.neg_tdiv, neg_eq_iff_eq_neg] at e
    have hv : val f (encZ w f m s) = -(q / 2 ^ f) := by
      rw [val, encZ, e, toInt_eq_of hw _ (-q) rfl (by omega) (by omega)]; push_cast; ring
    have hq0 : 0 ≤ (q : ℚ) / 2 ^ f := div_nonneg (by exact_mod_cast q0) hpf.le
    push_cast at q2 q3
    rw [neg_div] at q2 q3
    rw [hv, abs_neg, abs_of_nonpos (by exact_mod_cast hm : (m : ℚ) ≤ 0), abs_of_nonneg hq0, abs_le, neg_div]
    have : (0 : ℚ) < 1 / 2 ^ f := by positivity
    exact ⟨⟨by linarith, by linarith⟩, q2⟩

end Spu.Props

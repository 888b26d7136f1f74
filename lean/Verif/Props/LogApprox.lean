import Verif.Props.Poly
import Verif.Props.LogPoly
import Mathlib.Analysis.Complex.ExponentialBounds

set_option autoImplicit false

/-! # C90: the logarithm of secret fixed-point numbers -/

namespace Spu.Props
open Spu.Model Spu.Model.HalRing Spu.Model.FxpDiv Spu.Model.ExpApprox Spu.Model.PolyApprox Spu.Spec.Rounding Spu.Spec.FxpDiv

variable {w : ℕ}

/-- `prefixOr` sets the bits up to the highest one -/
theorem prefixOr_bit (t : ℕ) (x : BitVec (2 ^ t)) (m : ℕ) (h1 : 2 ^ m ≤ x.toNat) (h2 : x.toNat < 2 ^ (m + 1)) (i : ℕ) :
    (prefixOr x).getLsbD i = true ↔ i ≤ m := by
  have hb := fun j => highest_pow t x m h1 h2 j
  have hm : x.getLsbD m = true ∧ ∀ j, m < j → x.getLsbD j = false := by
    rw [← c37_highestOneBit, hb]; simp
  rw [c37_prefixOr]
  constructor
  · rintro ⟨j, hj, hx⟩
    by_contra h
    rw [hm.2 j (by omega)] at hx; simp at hx
  · exact fun h => ⟨m, h, hm.1⟩

/-- the power of two that brings a number into `[1, 2)` -/
theorem logFactor (t f : ℕ) (hf : 2 * f + 1 < 2 ^ t) (x : BitVec (2 ^ t)) (m : ℕ) (hm : m ≤ 2 * f) (h1 : 2 ^ m ≤ x.toNat)
    (h2 : x.toNat < 2 ^ (m + 1)) :
    ∃ r, Semi2kConv.bitrev (prefixOr x ^^^ (prefixOr x >>> 1)) 0 (2 * f + 1) = some r ∧
      (maskNumberOfBits r (2 * f + 1)).toInt = 2 ^ (2 * f - m) := by
  obtain ⟨r, hr, hb⟩ := c46_bitrev (Nat.zero_le (2 * f + 1)) hf (highestOneBit x)
  refine ⟨r, hr, toInt_twoPow_small _ (by omega) _ fun i => ?_⟩
  rw [c37_mask]
  by_cases hi : i < 2 ^ t
  · rw [hb i hi, highest_pow t x m h1 h2]
    by_cases hi2 : i < 2 * f + 1
    · simp only [Spec.revIdx, hi2, decide_true, Bool.and_true, Nat.zero_le, true_and, if_true, decide_eq_decide]
      omega
    · simp only [hi2, decide_false, Bool.and_false]
      symm; rw [decide_eq_false_iff_not]; omega
  · rw [BitVec.getLsbD_of_ge _ _ (by omega), Bool.false_and]
    symm; rw [decide_eq_false_iff_not]; omega

theorem ones_prefixOr (t : ℕ) (x : BitVec (2 ^ t)) (m n : ℕ) (h1 : 2 ^ m ≤ x.toNat) (h2 : x.toNat < 2 ^ (m + 1)) (hn : m < n) :
    ones (prefixOr x) n = m + 1 := by
  rw [ones, show ((Finset.range n).filter fun i => (prefixOr x).getLsbD i = true) = Finset.range (m + 1) by
    ext i; rw [Finset.mem_filter, Finset.mem_range, Finset.mem_range, prefixOr_bit t x m h1 h2]; omega, Finset.card_range]

/-- the value of a coefficient -/
def coef (c : ℤ × ℕ) : ℚ := c.1 / 2 ^ c.2

/-- the polynomial without constant term -/
def evalPoly (L : List (ℤ × ℕ)) (t : ℚ) : ℚ := ∑ i ∈ Finset.range L.length, coef (L.getD i (0, 0)) * t ^ (i + 1)

/-- the sum of the magnitudes of the coefficients, and the same with weights -/
def coefSum (L : List (ℤ × ℕ)) : ℚ := ∑ i ∈ Finset.range L.length, |coef (L.getD i (0, 0))|
def coefWeight (L : List (ℤ × ℕ)) : ℚ := ∑ i ∈ Finset.range L.length, |coef (L.getD i (0, 0))| * (26 / 25 * (103 / 100 * i + (i + 1)))

theorem pow_one_add_le {δ : ℚ} (h0 : 0 ≤ δ) (h1 : δ ≤ 1 / 256) (i : ℕ) (hi : i ≤ 8) : (1 + δ) ^ i ≤ 1 + 103 / 100 * i * δ := by
  induction i with
  | zero => simp
  | succ i ih =>
    have ih := ih (by omega)
    have hi' : (i : ℚ) ≤ 7 := by exact_mod_cast (by omega : i ≤ 7)
    have hi0 : (0 : ℚ) ≤ i := by positivity
    rw [pow_succ]
    refine (mul_le_mul_of_nonneg_right ih (by linarith)).trans ?_
    push_cast
    have : (i : ℚ) * δ ≤ 7 * (1 / 256) := mul_le_mul hi' h1 h0 (by norm_num)
    nlinarith

theorem getD_map_encZ (f : ℕ) (L : List (ℤ × ℕ)) (i : ℕ) (hi : i < L.length) :
    (L.map fun c => encZ w f c.1 c.2).getD i 0 = encZ w f (L.getD i (0, 0)).1 (L.getD i (0, 0)).2 := by
  rw [List.getD_eq_getElem?_getD, List.getElem?_map, List.getD_eq_getElem?_getD, List.getElem?_eq_getElem hi]; rfl

/-- C90: a polynomial of degree at most eight with encoded coefficients, at a word close to `v`. -/
theorem c90_poly_const (hw : 0 < w) {f d : ℕ} {R : ℤ} {T : ℕ → BitVec w → BitVec w} (ht : TruncOk f d R (T f)) (hR : R ≤ 2 ^ (w - 1))
    (hd : (d : ℚ) / 2 ^ f ≤ 1 / 256) (L : List (ℤ × ℕ)) (hL0 : L ≠ []) (hL : L.length ≤ 8)
    (hH : (1 + coefSum L) * (26 / 25 * (26 / 25)) * 2 ^ (2 * f) < R) (y : BitVec w) (v : ℚ) (hv : |v| ≤ 1) (hy : |val f y - v| ≤ d / 2 ^ f) :
    ∃ r, polynomial T f y (((0, 0) :: L).map fun c => encZ w f c.1 c.2) = some r ∧
      |val f r - evalPoly L v| ≤ (1 + coefWeight L) * (d / 2 ^ f) + 26 / 25 * L.length * (1 / 2 ^ f) := by
  set δ : ℚ := (d : ℚ) / 2 ^ f with hδ
  have hδ0 : 0 ≤ δ := by rw [hδ]; positivity
  have hpf : (0 : ℚ) < 2 ^ f := by positivity
  have hu0 : (0 : ℚ) < 1 / 2 ^ f := by positivity
  have hRq : (R : ℚ) ≤ 2 ^ (w - 1) := by exact_mod_cast hR
  have hff : (2 : ℚ) ^ f ≤ 2 ^ (2 * f) := pow_le_pow_right₀ (by norm_num) (by omega)
  have hM1 : (1 : ℚ) ≤ 1 + δ := by linarith
  have hS0 : 0 ≤ coefSum L := Finset.sum_nonneg fun _ _ => abs_nonneg _
  set t := val f y with ht'
  have htM : |t| ≤ 1 + δ := by
    have := abs_add_le (t - v) v
    rw [sub_add_cancel] at this; linarith
  have hvM : |v| ≤ 1 + δ := by linarith
  have p8 : ∀ i ≤ 8, (1 + δ) ^ i ≤ 26 / 25 := fun i hi => by
    have h := pow_one_add_le hδ0 hd i hi
    have hi' : (i : ℚ) ≤ 8 := by exact_mod_cast hi
    have : (i : ℚ) * δ ≤ 8 * (1 / 256) := mul_le_mul hi' hd hδ0 (by norm_num)
    linarith
  -- the encoded coefficients
  have henc : ∀ i < L.length, |val f (encZ w f (L.getD i (0, 0)).1 (L.getD i (0, 0)).2) - coef (L.getD i (0, 0))| ≤ 1 / 2 ^ f ∧
      |val f (encZ w f (L.getD i (0, 0)).1 (L.getD i (0, 0)).2)| ≤ |coef (L.getD i (0, 0))| := by
    intro i hi
    set c := L.getD i (0, 0) with hc
    have hs : (0 : ℚ) < 2 ^ c.2 := by positivity
    have hle : |coef c| ≤ coefSum L := Finset.single_le_sum (f := fun i => |coef (L.getD i (0, 0))|) (fun _ _ => abs_nonneg _) (Finset.mem_range.2 hi)
    have hlt : |coef c| * 2 ^ f < 2 ^ (w - 1) := by
      have h1 : |coef c| * 2 ^ f ≤ coefSum L * 2 ^ (2 * f) := mul_le_mul hle hff hpf.le hS0
      have h2 : 0 ≤ coefSum L * 2 ^ (2 * f) := by positivity
      have h3 : (0 : ℚ) < 2 ^ (2 * f) := by positivity
      nlinarith
    have := val_encZ hw f c.1 c.2 (by
      rw [coef, abs_div, abs_of_pos hs, div_mul_eq_mul_div, div_lt_iff₀ hs] at hlt
      exact_mod_cast hlt)
    rw [coef, abs_div, abs_of_pos hs]
    exact this
  have hz : val f (encZ w f 0 0) = 0 := by
    have := (val_encZ hw f 0 0 (by simp)).2
    simpa using this
  have hlen : (L.map fun c => encZ w f c.1 c.2).length = L.length := List.length_map _
  obtain ⟨r, hr, hc⟩ := c90_polynomial hw ht hR y (encZ w f 0 0) (L.map fun c => encZ w f c.1 c.2) (by simpa using hL0) (1 + δ) hM1 htM (by
    rw [hz, abs_zero, add_zero, hlen]
    refine lt_of_le_of_lt (mul_le_mul_of_nonneg_right (mul_le_mul ?_ ?_ (by positivity) (by positivity)) (by positivity)) hH
    · refine add_le_add le_rfl (Finset.sum_le_sum fun i hi => ?_)
      rw [getD_map_encZ f L i (Finset.mem_range.1 hi)]
      exact (henc i (Finset.mem_range.1 hi)).2
    · exact mul_le_mul (p8 _ hL) (p8 _ hL) (by positivity) (by norm_num))
  refine ⟨r, hr, ?_⟩
  rw [hz, zero_add, hlen] at hc
  have h1 : ∑ i ∈ Finset.range L.length, |val f ((L.map fun c => encZ w f c.1 c.2).getD i 0)| * ((1 + δ) ^ (i + 1) * ((1 + δ) ^ i - 1)) ≤
      ∑ i ∈ Finset.range L.length, |coef (L.getD i (0, 0))| * (26 / 25 * (103 / 100 * i * δ)) := by
    refine Finset.sum_le_sum fun i hi => ?_
    have hi' := Finset.mem_range.1 hi
    rw [getD_map_encZ f L i hi']
    have g1 := pow_one_add_le hδ0 hd i (by omega)
    have g2 : 1 ≤ (1 + δ) ^ i := one_le_pow₀ hM1
    refine mul_le_mul (henc i hi').2 (mul_le_mul (p8 _ (by omega)) (by linarith) (by linarith) (by norm_num)) ?_ (abs_nonneg _)
    exact mul_nonneg (by positivity) (by linarith)
  have h2 : |∑ i ∈ Finset.range L.length, val f ((L.map fun c => encZ w f c.1 c.2).getD i 0) * t ^ (i + 1) - evalPoly L v| ≤
      ∑ i ∈ Finset.range L.length, (26 / 25 * (1 / 2 ^ f) + |coef (L.getD i (0, 0))| * (26 / 25 * ((i + 1) * δ))) := by
    rw [evalPoly, ← Finset.sum_sub_distrib]
    refine (Finset.abs_sum_le_sum_abs _ _).trans (Finset.sum_le_sum fun i hi => ?_)
    have hi' := Finset.mem_range.1 hi
    rw [getD_map_encZ f L i hi']
    set c := encZ w f (L.getD i (0, 0)).1 (L.getD i (0, 0)).2
    set a := coef (L.getD i (0, 0)) with ha
    have e : val f c * t ^ (i + 1) - a * v ^ (i + 1) = (val f c - a) * t ^ (i + 1) + a * (t ^ (i + 1) - v ^ (i + 1)) := by ring
    rw [e]
    refine (abs_add_le _ _).trans ?_
    rw [abs_mul, abs_mul, mul_comm (26 / 25 : ℚ) (1 / 2 ^ f)]
    refine add_le_add (mul_le_mul (henc i hi').1 ?_ (abs_nonneg _) hu0.le) (mul_le_mul_of_nonneg_left ?_ (abs_nonneg _))
    · rw [abs_pow]
      exact (pow_le_pow_left₀ (abs_nonneg _) htM _).trans (p8 _ (by omega))
    · refine (abs_pow_sub_pow_le t v (i + 1)).trans ?_
      have hmx : max |t| |v| ≤ 1 + δ := max_le htM hvM
      have g1 : max |t| |v| ^ (i + 1 - 1) ≤ 26 / 25 := (pow_le_pow_left₀ (le_max_of_le_left (abs_nonneg _)) hmx _).trans (p8 _ (by omega))
      push_cast
      calc |t - v| * (i + 1) * max |t| |v| ^ (i + 1 - 1) ≤ δ * (i + 1) * (26 / 25) := by
            refine mul_le_mul (mul_le_mul_of_nonneg_right hy (by positivity)) g1 (by positivity) (by positivity)
        _ = 26 / 25 * ((i + 1) * δ) := by ring
  have h3 : ∑ i ∈ Finset.range L.length, |coef (L.getD i (0, 0))| * (26 / 25 * (103 / 100 * i * δ)) +
      ∑ i ∈ Finset.range L.length, (26 / 25 * (1 / 2 ^ f) + |coef (L.getD i (0, 0))| * (26 / 25 * ((i + 1) * δ))) =
      coefWeight L * δ + 26 / 25 * L.length * (1 / 2 ^ f) := by
    rw [coefWeight, Finset.sum_mul, Finset.sum_add_distrib, Finset.sum_const, Finset.card_range, nsmul_eq_mul, add_left_comm, ← Finset.sum_add_distrib]
    rw [add_comm]
    congr 1
    · exact Finset.sum_congr rfl fun i _ => by ring
    · ring
  have := abs_add_le (val f r - ∑ i ∈ Finset.range L.length, val f ((L.map fun c => encZ w f c.1 c.2).getD i 0) * t ^ (i + 1))
    (∑ i ∈ Finset.range L.length, val f ((L.map fun c => encZ w f c.1 c.2).getD i 0) * t ^ (i + 1) - evalPoly L v)
  rw [sub_add_sub_cancel] at this
  linarith

theorem log_coef : coefSum logCoeffs.tail ≤ 24 / 10 ∧ coefWeight logCoeffs.tail ≤ 10 ∧ logCoeffs.tail.length = 8 := by
  decide +kernel

theorem logPoly_real (t : ℚ) : ((evalPoly logCoeffs.tail t : ℚ) : ℝ) = logPolyR t := by
  simp only [evalPoly, logPolyR, logCoeffs, List.tail_cons, List.length_cons, List.length_nil, Finset.sum_range_succ, Finset.sum_range_zero,
    List.getD_cons_succ, List.getD_cons_zero, coef, Nat.reduceAdd]
  push_cast
  ring

/-- the double for the logarithm of two -/
theorem log2_close : |(6243314768165359 / 2 ^ 53 : ℝ) - Real.log 2| ≤ 1 / 10 ^ 9 := by
  have g := Real.log_two_gt_d9
  have l := Real.log_two_lt_d9
  rw [abs_le]; norm_num at *
  constructor <;> linarith

/-- C90: the logarithm of a secret between 0 and `2^(f+1)`. -/
theorem c90_log (t : ℕ) {f d : ℕ} (hf8 : 8 ≤ f) (hf : 2 * f + 1 < 2 ^ t) {R : ℤ} {T : ℕ → BitVec (2 ^ t) → BitVec (2 ^ t)}
    (ht : TruncOk f d R (T f)) (hR : R ≤ 2 ^ (2 ^ t - 1)) (hR4 : (f + 4) * 2 ^ (2 * f) ≤ R) (hd : (d : ℚ) / 2 ^ f ≤ 1 / 256)
    (x : BitVec (2 ^ t)) (h0 : 0 < val f x) (h1 : val f x < 2 ^ (f + 1)) :
    ∃ r, logMinmax T f x = some r ∧
      |(val f r : ℝ) - Real.log (val f x)| ≤ 11 / 10 ^ 6 + 12 * (d / 2 ^ f) + (9 + f) / 2 ^ f + f / 10 ^ 9 := by
  have hw0 : 0 < 2 ^ t := by positivity
  have hpf : (0 : ℚ) < 2 ^ f := by positivity
  have hpp : (0 : ℚ) < 2 ^ (2 * f) := by positivity
  have hRq : (R : ℚ) ≤ 2 ^ (2 ^ t - 1) := by exact_mod_cast hR
  have hR4q : (f + 4) * 2 ^ (2 * f) ≤ (R : ℚ) := by exact_mod_cast hR4
  have hf0 : (0 : ℚ) ≤ f := by positivity
  have hR4' : 4 * 2 ^ (2 * f) ≤ R := le_trans (mul_le_mul_of_nonneg_right (by omega) (by positivity)) hR4
  have hff : (2 : ℚ) ^ f ≤ 2 ^ (2 * f) := pow_le_pow_right₀ (by norm_num) (by omega)
  have hf256 : (256 : ℚ) * 2 ^ f ≤ 2 ^ (2 * f) := by
    rw [two_mul, pow_add]
    exact mul_le_mul_of_nonneg_right (by
      calc (256 : ℚ) = 2 ^ 8 := by norm_num
        _ ≤ 2 ^ f := pow_le_pow_right₀ (by norm_num) hf8) hpf.le
  -- the word
  have hxi0 : 0 < x.toInt := by
    have : 0 < (x.toInt : ℚ) := by rw [← val_mul_pow f x]; positivity
    exact_mod_cast this
  have hn : x.toInt = (x.toNat : ℤ) := by
    rw [BitVec.toInt_eq_toNat_cond] at hxi0 ⊢
    split at hxi0
    · rename_i hc; rw [if_pos hc]
    · have := x.isLt; omega
  have hx0 : x.toNat ≠ 0 := by omega
  set m := Nat.log2 x.toNat with hm
  have hm1 : 2 ^ m ≤ x.toNat := Nat.log2_self_le hx0
  have hm2 : x.toNat < 2 ^ (m + 1) := Nat.lt_log2_self
  have hml : m ≤ 2 * f := by
    have hlt : (x.toNat : ℚ) < 2 ^ (2 * f + 1) := by
      have : (x.toInt : ℚ) < 2 ^ (2 * f + 1) := by
        rw [← val_mul_pow f x, show 2 * f + 1 = (f + 1) + f by ring, pow_add]
        exact mul_lt_mul_of_pos_right h1 hpf
      rw [hn] at this; exact_mod_cast this
    have hlt : x.toNat < 2 ^ (2 * f + 1) := by exact_mod_cast hlt
    have : 2 ^ m < 2 ^ (2 * f + 1) := lt_of_le_of_lt hm1 hlt
    have := (Nat.pow_lt_pow_iff_right (by norm_num : 1 < 2)).1 this
    omega
  obtain ⟨r0, hr0, hfac⟩ := logFactor t f hf x m hml hm1 hm2
  set fac := maskNumberOfBits r0 (2 * f + 1) with hfacd
  set V : ℚ := x.toNat / 2 ^ m with hV
  have hV1 : 1 ≤ V := by rw [hV, le_div_iff₀ (by positivity), one_mul]; exact_mod_cast hm1
  have hV2 : V < 2 := by rw [hV, div_lt_iff₀ (by positivity), ← pow_succ']; exact_mod_cast hm2
  have hVx : val f x * val f fac = V := by
    rw [val, val, hfac, hn, hV]
    push_cast
    rw [div_mul_div_comm, ← pow_add, div_eq_div_iff (by positivity) (by positivity), mul_assoc, ← pow_add]
    congr 2; omega
  have hnorm := val_fmul hw0 ht hR x fac (by
    rw [hVx, abs_of_pos (by linarith)]
    nlinarith)
  rw [hVx] at hnorm
  set norm := fmul (T f) x fac with hnormd
  obtain ⟨n1, n2⟩ := abs_le.1 hnorm
  have hone := val_kOne (f := f) hw0 hR hR4'
  have hsub : val f (HalRing.sub norm (kOne (2 ^ t) f)) = val f norm - 1 := by
    rw [val_sub hw0 f norm _ (by
      rw [hone]
      have : |val f norm - 1| ≤ 2 := by rw [abs_le]; constructor <;> linarith
      have := mul_le_mul_of_nonneg_right this hpf.le
      nlinarith), hone]
  obtain ⟨c1, c2, c3⟩ := log_coef
  obtain ⟨ln, hln, hlc⟩ := c90_poly_const hw0 ht hR hd logCoeffs.tail (by decide) (by rw [c3])
    (by
      refine lt_of_lt_of_le (mul_lt_mul_of_pos_right ?_ hpp) hR4q
      linarith)
    (HalRing.sub norm (kOne (2 ^ t) f)) (V - 1) (by rw [abs_of_nonneg (by linarith)]; linarith)
    (by rw [hsub, sub_sub_sub_cancel_right]; exact hnorm)
  have hln' : logNorm T f norm = some ln := hln
  rw [c3] at hlc
  -- the power of two
  have hk : popcount (prefixOr x) (2 * f + 2) = some (BitVec.ofNat (2 ^ t) (m + 1)) := by
    rw [c37_popcount hw0 _ _ (by omega), ones_prefixOr t x m _ hm1 hm2 (by omega)]
  set l2 := HalRing.sub (BitVec.ofNat (2 ^ t) (m + 1)) (BitVec.ofNat (2 ^ t) (f + 1)) <<< f with hl2
  have hl2i : l2 = BitVec.ofInt (2 ^ t) (((m : ℤ) - f) * 2 ^ f) := by
    rw [hl2, hal_sub, ← shl_ofInt]
    congr 1
    rw [← BitVec.ofInt_natCast, ← BitVec.ofInt_natCast, ← ofInt_sub']
    congr 1; push_cast; ring
  have hmf : |(m : ℚ) - f| ≤ f := by
    have : (m : ℚ) ≤ 2 * f := by exact_mod_cast hml
    have : (0 : ℚ) ≤ m := by positivity
    rw [abs_le]; constructor <;> linarith
  have hl2v : val f l2 = m - f := by
    rw [val_of_eq hw0 f l2 _ hl2i]
    · push_cast; field_simp
    · push_cast
      rw [abs_mul, abs_of_pos hpf]
      have := mul_le_mul hmf hff hpf.le hf0
      nlinarith
  have he2 := val_encZ hw0 f 6243314768165359 53 (by
    have a : (6243314768165359 : ℤ) * 2 ^ f < 2 ^ f * 2 ^ 53 := by
      have : (0 : ℤ) < 2 ^ f := by positivity
      rw [mul_comm]; exact mul_lt_mul_of_pos_left (by norm_num) this
    have b : (2 : ℤ) ^ f ≤ 2 ^ (2 ^ t - 1) := pow_le_pow_right₀ (by norm_num) (by omega)
    rw [abs_of_pos (by norm_num)]
    exact a.trans_le (mul_le_mul_of_nonneg_right b (by norm_num)))
  set c := encZ (2 ^ t) f 6243314768165359 53 with hcd
  have hc1 : |val f c| ≤ 1 := he2.2.trans (by norm_num)
  have hlmul := val_fmul hw0 ht hR l2 c (by
    rw [hl2v, abs_mul]
    have := mul_le_mul hmf hc1 (abs_nonneg _) hf0
    nlinarith)
  rw [hl2v] at hlmul
  set le := fmul (T f) l2 c with hled
  -- no overflow of the sum
  have hlb : |val f ln| ≤ 4 := by
    have hS : |evalPoly logCoeffs.tail (V - 1)| ≤ coefSum logCoeffs.tail := by
      rw [evalPoly, coefSum]
      refine (Finset.abs_sum_le_sum_abs _ _).trans (Finset.sum_le_sum fun i _ => ?_)
      rw [abs_mul, abs_pow]
      refine mul_le_of_le_one_right (abs_nonneg _) (pow_le_one₀ (abs_nonneg _) ?_)
      rw [abs_of_nonneg (by linarith)]; linarith
    have h := abs_add_le (val f ln - evalPoly logCoeffs.tail (V - 1)) (evalPoly logCoeffs.tail (V - 1))
    rw [sub_add_cancel] at h
    have hu : (1 : ℚ) / 2 ^ f ≤ 1 / 256 := by
      refine one_div_le_one_div_of_le (by norm_num) ?_
      calc (256 : ℚ) = 2 ^ 8 := by norm_num
        _ ≤ 2 ^ f := pow_le_pow_right₀ (by norm_num) hf8
    have h2 : (1 + coefWeight logCoeffs.tail) * (d / 2 ^ f) ≤ 11 * (1 / 256) :=
      mul_le_mul (by linarith) hd (by positivity) (by norm_num)
    push_cast at hlc
    linarith
  have hleb : |val f le| ≤ f + 1 := by
    have h := abs_add_le (val f le - (m - f) * val f c) ((m - f) * val f c)
    rw [sub_add_cancel, abs_mul ((m : ℚ) - f)] at h
    have := mul_le_mul hmf hc1 (abs_nonneg _) hf0
    linarith
  have hsum : val f (ln + le) = val f ln + val f le := by
    refine val_add hw0 f _ _ ?_
    have h := abs_add_le (val f ln) (val f le)
    have h2 : |val f ln + val f le| * 2 ^ f ≤ (f + 5) * 2 ^ f := mul_le_mul_of_nonneg_right (by linarith) hpf.le
    nlinarith
  refine ⟨ln + le, ?_, ?_⟩
  · simp only [logMinmax, hk, hr0, Option.bind_eq_bind, Option.bind_some, ← hfacd, ← hnormd, hln', ← hl2, ← hcd, ← hled, Option.pure_def]
  -- real numbers
  have hVr : (1 : ℝ) ≤ (V : ℝ) := by exact_mod_cast hV1
  have hXV : (val f x : ℝ) = (V : ℝ) * (2 : ℝ) ^ ((m : ℤ) - f) := by
    rw [hV, val, hn]
    push_cast
    rw [zpow_sub₀ (by norm_num), zpow_natCast, zpow_natCast]
    field_simp
  have hlog : Real.log (val f x) = Real.log V + ((m : ℝ) - f) * Real.log 2 := by
    rw [hXV, Real.log_mul (by linarith) (by positivity), Real.log_zpow]; push_cast; rfl
  have hA : |(val f ln : ℝ) - Real.log V| ≤ 11 / 10 ^ 6 + 11 * (d / 2 ^ f) + 9 * (1 / 2 ^ f) := by
    have hq : |val f ln - evalPoly logCoeffs.tail (V - 1)| ≤ 11 * (d / 2 ^ f) + 9 * (1 / 2 ^ f) := by
      have : (1 + coefWeight logCoeffs.tail) * ((d : ℚ) / 2 ^ f) ≤ 11 * (d / 2 ^ f) := mul_le_mul_of_nonneg_right (by linarith) (by positivity)
      have hu : (0 : ℚ) < 1 / 2 ^ f := by positivity
      push_cast at hlc
      linarith
    have hr : |(val f ln : ℝ) - logPolyR ((V : ℝ) - 1)| ≤ 11 * (d / 2 ^ f) + 9 * (1 / 2 ^ f) := by
      have : |((val f ln - evalPoly logCoeffs.tail (V - 1) : ℚ) : ℝ)| ≤ ((11 * (d / 2 ^ f) + 9 * (1 / 2 ^ f) : ℚ) : ℝ) := by exact_mod_cast hq
      rw [Rat.cast_sub, logPoly_real] at this
      push_cast at this
      exact this
    have hV2r : (V : ℝ) ≤ 2 := by exact_mod_cast hV2.le
    have hp := logPoly_close ((V : ℝ) - 1) (by linarith) (by linarith)
    rw [add_sub_cancel] at hp
    have h := abs_add_le ((val f ln : ℝ) - logPolyR ((V : ℝ) - 1)) (logPolyR ((V : ℝ) - 1) - Real.log V)
    rw [sub_add_sub_cancel] at h
    norm_num at hp h hr ⊢
    linarith
  have hB : |(val f le : ℝ) - ((m : ℝ) - f) * Real.log 2| ≤ d / 2 ^ f + f * (1 / 2 ^ f + 1 / 10 ^ 9) := by
    have h1 : |(val f le : ℝ) - ((m : ℝ) - f) * (val f c : ℝ)| ≤ d / 2 ^ f := by
      have : |((val f le - (m - f) * val f c : ℚ) : ℝ)| ≤ ((d / 2 ^ f : ℚ) : ℝ) := by exact_mod_cast hlmul
      push_cast at this; exact this
    have hmfr : |(m : ℝ) - f| ≤ f := by
      have : |(((m : ℚ) - f : ℚ) : ℝ)| ≤ ((f : ℚ) : ℝ) := by exact_mod_cast hmf
      push_cast at this; exact this
    have hcr : |(val f c : ℝ) - 6243314768165359 / 2 ^ 53| ≤ 1 / 2 ^ f := by
      have : |((val f c - ((6243314768165359 : ℤ) : ℚ) / 2 ^ 53 : ℚ) : ℝ)| ≤ ((1 / 2 ^ f : ℚ) : ℝ) := by exact_mod_cast he2.1
      push_cast at this; exact this
    have h2 : |(val f c : ℝ) - Real.log 2| ≤ 1 / 2 ^ f + 1 / 10 ^ 9 := by
      have h := abs_add_le ((val f c : ℝ) - 6243314768165359 / 2 ^ 53) (6243314768165359 / 2 ^ 53 - Real.log 2)
      rw [sub_add_sub_cancel] at h
      exact h.trans (add_le_add hcr log2_close)
    have h3 : |((m : ℝ) - f) * (val f c : ℝ) - ((m : ℝ) - f) * Real.log 2| ≤ f * (1 / 2 ^ f + 1 / 10 ^ 9) := by
      rw [← mul_sub, abs_mul]
      exact mul_le_mul hmfr h2 (abs_nonneg _) (by positivity)
    have h := abs_add_le ((val f le : ℝ) - ((m : ℝ) - f) * (val f c : ℝ)) (((m : ℝ) - f) * (val f c : ℝ) - ((m : ℝ) - f) * Real.log 2)
    rw [sub_add_sub_cancel] at h
    linarith
  rw [hsum, hlog]
  push_cast
  have h := abs_add_le ((val f ln : ℝ) - Real.log V) ((val f le : ℝ) - ((m : ℝ) - f) * Real.log 2)
  rw [show (val f ln : ℝ) - Real.log V + ((val f le : ℝ) - ((m : ℝ) - f) * Real.log 2) =
    (val f ln : ℝ) + val f le - (Real.log V + ((m : ℝ) - f) * Real.log 2) by ring] at h
  refine h.trans ((add_le_add hA hB).trans (le_of_eq ?_))
  ring

/-- the exact truncation -/
example : ∃ r, logMinmax (fun b (v : BitVec (2 ^ 6)) => v.sshiftRight b) 18 (BitVec.ofInt 64 (10 * 2 ^ 18)) = some r ∧
    |(val 18 r : ℝ) - Real.log 10| ≤ 1 / 5000 := by
  have e : val 18 (BitVec.ofInt 64 (10 * 2 ^ 18)) = 10 := by
    rw [val, show (BitVec.ofInt 64 (10 * 2 ^ 18)).toInt = 10 * 2 ^ 18 by decide]; norm_num
  obtain ⟨r, h1, h2⟩ := c90_log 6 (f := 18) (d := 1) (R := 2 ^ 62) (T := fun b (v : BitVec (2 ^ 6)) => v.sshiftRight b) (by norm_num)
    (by norm_num) (truncOk_sar 18 _) (by norm_num) (by norm_num) (by norm_num) (BitVec.ofInt 64 (10 * 2 ^ 18)) (by rw [e]; norm_num) (by rw [e]; norm_num)
  refine ⟨r, h1, ?_⟩
  rw [e] at h2
  refine h2.trans ?_
  norm_num

/-- C90: outside its range the result is unrelated to the logarithm: zero gives about −15.55, `2^19` (whose logarithm is about 13.17) gives 10.79 -/
theorem c90_log_range : logMinmax (fun b (v : BitVec 64) => v.sshiftRight b) 18 0 = some (BitVec.ofInt 64 (-4075733)) ∧
    logMinmax (fun b (v : BitVec 64) => v.sshiftRight b) 18 (BitVec.ofInt 64 (2 ^ 37)) = some (BitVec.ofInt 64 2829019) := by
  constructor <;> decide +kernel

/-- C90: the logarithm of one plus a secret above −1. -/
theorem c90_log1p (t : ℕ) {f d : ℕ} (hf8 : 8 ≤ f) (hf : 2 * f + 1 < 2 ^ t) {R : ℤ} {T : ℕ → BitVec (2 ^ t) → BitVec (2 ^ t)}
    (ht : TruncOk f d R (T f)) (hR : R ≤ 2 ^ (2 ^ t - 1)) (hR4 : (f + 4) * 2 ^ (2 * f) ≤ R) (hd : (d : ℚ) / 2 ^ f ≤ 1 / 256)
    (x : BitVec (2 ^ t)) (h0 : -1 < val f x) (h1 : val f x < 2 ^ (f + 1) - 1) :
    ∃ r, log1p T f x = some r ∧
      |(val f r : ℝ) - Real.log (1 + val f x)| ≤ 11 / 10 ^ 6 + 12 * (d / 2 ^ f) + (9 + f) / 2 ^ f + f / 10 ^ 9 := by
  have hw0 : 0 < 2 ^ t := by positivity
  have hR4' : 4 * 2 ^ (2 * f) ≤ R := le_trans (mul_le_mul_of_nonneg_right (by omega) (by positivity)) hR4
  have hone := val_kOne (f := f) hw0 hR hR4'
  have hadd : val f (kOne (2 ^ t) f + x) = 1 + val f x := by
    rw [val_add hw0 f _ _ (by
      rw [hone, abs_of_pos (by linarith)]
      have : (1 + val f x) * 2 ^ f < 2 ^ (f + 1) * 2 ^ f := mul_lt_mul_of_pos_right (by linarith) (by positivity)
      refine this.le.trans_lt ?_
      rw [← pow_add]
      have hRq : (R : ℚ) ≤ 2 ^ (2 ^ t - 1) := by exact_mod_cast hR
      have hR4q : 4 * 2 ^ (2 * f) ≤ (R : ℚ) := by exact_mod_cast hR4'
      refine lt_of_lt_of_le ?_ (hR4q.trans hRq)
      rw [show f + 1 + f = 2 * f + 1 by ring, pow_succ]
      have : (0 : ℚ) < 2 ^ (2 * f) := by positivity
      linarith), hone]
  obtain ⟨r, h2, h3⟩ := c90_log t hf8 hf ht hR hR4 hd (kOne (2 ^ t) f + x) (by rw [hadd]; linarith) (by rw [hadd]; linarith)
  refine ⟨r, h2, ?_⟩
  rw [hadd] at h3
  push_cast at h3
  exact h3

example : ∃ r, log1p (fun b (v : BitVec (2 ^ 6)) => v.sshiftRight b) 18 (BitVec.ofInt 64 (-(2 ^ 17))) = some r ∧
    |(val 18 r : ℝ) - Real.log (1 / 2)| ≤ 1 / 5000 := by
  have e : val 18 (BitVec.ofInt 64 (-(2 ^ 17))) = -1 / 2 := by
    rw [val, show (BitVec.ofInt 64 (-(2 ^ 17))).toInt = -(2 ^ 17) by decide]; norm_num
  obtain ⟨r, h1, h2⟩ := c90_log1p 6 (f := 18) (d := 1) (R := 2 ^ 62) (T := fun b (v : BitVec (2 ^ 6)) => v.sshiftRight b) (by norm_num)
    (by norm_num) (truncOk_sar 18 _) (by norm_num) (by norm_num) (by norm_num) (BitVec.ofInt 64 (-(2 ^ 17))) (by rw [e]; norm_num) (by rw [e]; norm_num)
  refine ⟨r, h1, ?_⟩
  rw [e] at h2
  norm_num at h2 ⊢
  linarith

end Spu.Props

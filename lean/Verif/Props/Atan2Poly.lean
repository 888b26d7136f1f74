import Verif.Model.Atan2
import Verif.Props.LogApprox
import Verif.Props.AtanPolyL
import Mathlib.Analysis.Real.Pi.Bounds

set_option autoImplicit false

/-! # C92: the polynomials for the arc tangent on words -/

namespace Spu.Props
open Spu.Model Spu.Model.HalRing Spu.Model.FxpDiv Spu.Model.PolyApprox Spu.Model.Atan2 Spu.Spec.Rounding Spu.Spec.FxpDiv

variable {w : ℕ}

theorem pow_one_add_le_ten {δ : ℚ} (h0 : 0 ≤ δ) (h1 : δ ≤ 1 / 256) (i : ℕ) (hi : i ≤ 10) : (1 + δ) ^ i ≤ 1 + 21 / 20 * i * δ := by
  induction i with
  | zero => simp
  | succ i ih =>
    have ih := ih (by omega)
    have hi' : (i : ℚ) ≤ 9 := by exact_mod_cast (by omega : i ≤ 9)
    have hi0 : (0 : ℚ) ≤ i := by positivity
    rw [pow_succ]
    refine (mul_le_mul_of_nonneg_right ih (by linarith)).trans ?_
    push_cast
    have : (i : ℚ) * δ ≤ 9 * (1 / 256) := mul_le_mul hi' h1 h0 (by norm_num)
    nlinarith

/-- the coefficients after the constant term, weighted with the number of truncations -/
def coefTrunc (L : List (ℤ × ℕ)) : ℚ := ∑ i ∈ Finset.range L.length, |coef (L.getD i (0, 0))| * i

/-- a polynomial of degree at most ten with encoded coefficients, at a word somewhat beyond the unit interval -/
theorem poly_wide (hw : 0 < w) {f d : ℕ} {R : ℤ} {T : ℕ → BitVec w → BitVec w} (ht : TruncOk f d R (T f)) (hR : R ≤ 2 ^ (w - 1))
    (hd : (d : ℚ) / 2 ^ f ≤ 1 / 256) (h : ℤ × ℕ) (L : List (ℤ × ℕ)) (hL0 : L ≠ []) (hL : L.length ≤ 10)
    (hH : (1 + |coef h| + coefSum L) * 2 * 2 ^ (2 * f) < R) (y : BitVec w) (hy : |val f y| ≤ 17 / 16) :
    ∃ r, polynomial T f y ((h :: L).map fun c => encZ w f c.1 c.2) = some r ∧
      |val f r - (coef h + evalPoly L (val f y))| ≤ (1 + 2 * coefTrunc L) * (d / 2 ^ f) + (1 + 2 * L.length) * (1 / 2 ^ f) := by
  set δ : ℚ := (d : ℚ) / 2 ^ f with hδ
  have hδ0 : 0 ≤ δ := by rw [hδ]; positivity
  have hpf : (0 : ℚ) < 2 ^ f := by positivity
  have hu0 : (0 : ℚ) < 1 / 2 ^ f := by positivity
  have hRq : (R : ℚ) ≤ 2 ^ (w - 1) := by exact_mod_cast hR
  have hff : (2 : ℚ) ^ f ≤ 2 ^ (2 * f) := pow_le_pow_right₀ (by norm_num) (by omega)
  have hS0 : 0 ≤ coefSum L := Finset.sum_nonneg fun _ _ => abs_nonneg _
  set t := val f y with ht'
  have p10 : ∀ i ≤ 10, (1 + δ) ^ i ≤ 53 / 50 := fun i hi => by
    have h := pow_one_add_le_ten hδ0 hd i hi
    have hi' : (i : ℚ) ≤ 10 := by exact_mod_cast hi
    have : (i : ℚ) * δ ≤ 10 * (1 / 256) := mul_le_mul hi' hd hδ0 (by norm_num)
    linarith
  have m10 : ∀ i ≤ 10, ((17 : ℚ) / 16) ^ i ≤ 184 / 100 := fun i hi => (pow_le_pow_right₀ (by norm_num) hi).trans (by norm_num)
  -- the encoded coefficients
  have henc : ∀ c : ℤ × ℕ, |coef c| ≤ |coef h| + coefSum L → |val f (encZ w f c.1 c.2) - coef c| ≤ 1 / 2 ^ f ∧
      |val f (encZ w f c.1 c.2)| ≤ |coef c| := by
    intro c hle
    have hs : (0 : ℚ) < 2 ^ c.2 := by positivity
    have hlt : |coef c| * 2 ^ f < 2 ^ (w - 1) := by
      have h1 : |coef c| * 2 ^ f ≤ (|coef h| + coefSum L) * 2 ^ (2 * f) := mul_le_mul hle hff hpf.le (by positivity)
      have h2 : 0 ≤ (|coef h| + coefSum L) * 2 ^ (2 * f) := by positivity
      have h3 : (0 : ℚ) < 2 ^ (2 * f) := by positivity
      nlinarith
    have := val_encZ hw f c.1 c.2 (by
      rw [coef, abs_div, abs_of_pos hs, div_mul_eq_mul_div, div_lt_iff₀ hs] at hlt
      exact_mod_cast hlt)
    rw [coef, abs_div, abs_of_pos hs]
    exact this
  have hencL : ∀ i < L.length, |val f (encZ w f (L.getD i (0, 0)).1 (L.getD i (0, 0)).2) - coef (L.getD i (0, 0))| ≤ 1 / 2 ^ f ∧
      |val f (encZ w f (L.getD i (0, 0)).1 (L.getD i (0, 0)).2)| ≤ |coef (L.getD i (0, 0))| := by
    intro i hi
    have hle : |coef (L.getD i (0, 0))| ≤ coefSum L :=
      Finset.single_le_sum (f := fun i => |coef (L.getD i (0, 0))|) (fun _ _ => abs_nonneg _) (Finset.mem_range.2 hi)
    exact henc _ (by have := abs_nonneg (coef h); linarith)
  obtain ⟨eh, ehm⟩ := henc h (by linarith)
  have hlen : (L.map fun c => encZ w f c.1 c.2).length = L.length := List.length_map _
  obtain ⟨r, hr, hc⟩ := c90_polynomial hw ht hR y (encZ w f h.1 h.2) (L.map fun c => encZ w f c.1 c.2) (by simpa using hL0) (17 / 16) (by norm_num) hy (by
    rw [hlen]
    refine lt_of_le_of_lt (mul_le_mul_of_nonneg_right (mul_le_mul ?_ (?_ : _ ≤ (2 : ℚ)) (by positivity) (by positivity)) (by positivity)) hH
    · refine add_le_add (by linarith) (Finset.sum_le_sum fun i hi => ?_)
      rw [getD_map_encZ f L i (Finset.mem_range.1 hi)]
      exact (hencL i (Finset.mem_range.1 hi)).2
    · exact (mul_le_mul (m10 _ hL) (p10 _ hL) (by positivity) (by norm_num)).trans (by norm_num))
  refine ⟨r, hr, ?_⟩
  rw [hlen] at hc
  have h1 : ∑ i ∈ Finset.range L.length, |val f ((L.map fun c => encZ w f c.1 c.2).getD i 0)| * ((17 / 16) ^ (i + 1) * ((1 + δ) ^ i - 1)) ≤
      ∑ i ∈ Finset.range L.length, |coef (L.getD i (0, 0))| * (2 * i * δ) := by
    refine Finset.sum_le_sum fun i hi => ?_
    have hi' := Finset.mem_range.1 hi
    rw [getD_map_encZ f L i hi']
    have g1 := pow_one_add_le_ten hδ0 hd i (by omega)
    have g2 : 1 ≤ (1 + δ) ^ i := one_le_pow₀ (by linarith)
    have g3 : (0 : ℚ) ≤ i * δ := by positivity
    refine mul_le_mul (hencL i hi').2 ?_ (mul_nonneg (by positivity) (by linarith)) (abs_nonneg _)
    refine (mul_le_mul (m10 _ (by omega)) (by linarith : _ ≤ 21 / 20 * i * δ) (by linarith) (by norm_num)).trans ?_
    nlinarith
  have h2 : |(val f (encZ w f h.1 h.2) + ∑ i ∈ Finset.range L.length, val f ((L.map fun c => encZ w f c.1 c.2).getD i 0) * t ^ (i + 1)) -
      (coef h + evalPoly L t)| ≤ 1 / 2 ^ f + ∑ i ∈ Finset.range L.length, 2 * (1 / 2 ^ f : ℚ) := by
    rw [evalPoly, add_sub_add_comm, ← Finset.sum_sub_distrib]
    refine (abs_add_le _ _).trans (add_le_add eh ((Finset.abs_sum_le_sum_abs _ _).trans (Finset.sum_le_sum fun i hi => ?_)))
    have hi' := Finset.mem_range.1 hi
    rw [getD_map_encZ f L i hi', ← sub_mul, abs_mul, mul_comm (2 : ℚ), abs_pow]
    exact mul_le_mul (hencL i hi').1 ((pow_le_pow_left₀ (abs_nonneg _) hy _).trans ((m10 _ (by omega)).trans (by norm_num))) (by positivity) hu0.le
  have e : val f r - (coef h + evalPoly L t) = (val f r - (val f (encZ w f h.1 h.2) +
      ∑ i ∈ Finset.range L.length, val f ((L.map fun c => encZ w f c.1 c.2).getD i 0) * t ^ (i + 1))) +
      ((val f (encZ w f h.1 h.2) + ∑ i ∈ Finset.range L.length, val f ((L.map fun c => encZ w f c.1 c.2).getD i 0) * t ^ (i + 1)) -
      (coef h + evalPoly L t)) := by ring
  rw [e]
  refine (abs_add_le _ _).trans ?_
  have h3 : ∑ i ∈ Finset.range L.length, |coef (L.getD i (0, 0))| * (2 * i * δ) = 2 * coefTrunc L * δ := by
    rw [coefTrunc, Finset.mul_sum, Finset.sum_mul]
    exact Finset.sum_congr rfl fun i _ => by ring
  rw [Finset.sum_const, Finset.card_range, nsmul_eq_mul] at h2
  linarith

/-- the accuracy of `AtanApproxLocal`: the polynomial, the truncations and the encoded constants -/
def atanEta (f : ℕ) : ℚ := if f ≤ 20 then 9 / 1000000 else 11 / 100000000
def atanErr (f d : ℕ) : ℚ := 17 * (d / 2 ^ f) + 21 * (1 / 2 ^ f)

/-- C92: `AtanApproxLocal` at a word close to a number between zero and one. -/
theorem c92_atan_local (hw : 0 < w) {f d : ℕ} {R : ℤ} {T : ℕ → BitVec w → BitVec w} (ht : TruncOk f d R (T f)) (hR : R ≤ 2 ^ (w - 1))
    (hd : (d : ℚ) / 2 ^ f ≤ 1 / 256) (hR8 : 8 * 2 ^ (2 * f) ≤ R) (y : BitVec w) (q : ℝ) (h0 : 0 ≤ q) (h1 : q ≤ 1) (e : ℝ) (he : e ≤ 1 / 16)
    (hy : |(val f y : ℝ) - q| ≤ e) :
    ∃ r, atanLocal T f y = some r ∧ |(val f r : ℝ) - Real.arctan q| ≤ atanEta f + 101 / 100 * e + atanErr f d := by
  have hy' := abs_le.1 hy
  have hl : -(1 / 16 : ℝ) ≤ val f y := by linarith
  have hu : (val f y : ℝ) ≤ 17 / 16 := by linarith
  have hyM : |val f y| ≤ 17 / 16 := by
    have a : -(1 / 16 : ℚ) ≤ val f y := (Rat.cast_le (K := ℝ)).1 (by push_cast; exact hl)
    have b : val f y ≤ 17 / 16 := (Rat.cast_le (K := ℝ)).1 (by push_cast; exact hu)
    rw [abs_le]; constructor <;> linarith
  have hp2 : (0 : ℚ) < 2 ^ (2 * f) := by positivity
  have hR8q : 8 * 2 ^ (2 * f) ≤ (R : ℚ) := by exact_mod_cast hR8
  have hδ0 : (0 : ℚ) ≤ d / 2 ^ f := by positivity
  have hu0 : (0 : ℚ) ≤ 1 / 2 ^ f := by positivity
  by_cases hf : f ≤ 20
  · have hs : |coef (14050327, 41)| + coefSum [(16766853, 24), (10384919, 30), (-13036263, 25), (1161891, 23), (4417271, 26), (-10600087, 28)] ≤ 3 - 1 / 100 := by
      norm_num [coefSum, coef, Finset.sum_range_succ, abs_of_pos, abs_of_neg]
    have hs2 : coefTrunc [(16766853, 24), (10384919, 30), (-13036263, 25), (1161891, 23), (4417271, 26), (-10600087, 28)] ≤ 8 := by
      norm_num [coefTrunc, coef, Finset.sum_range_succ, abs_of_pos, abs_of_neg]
    obtain ⟨r, hr, hc⟩ := poly_wide hw ht hR hd (14050327, 41) [(16766853, 24), (10384919, 30), (-13036263, 25), (1161891, 23), (4417271, 26), (-10600087, 28)]
      (by simp) (by simp) (lt_of_lt_of_le (mul_lt_mul_of_pos_right (by linarith) hp2) hR8q) y hyM
    refine ⟨r, by rw [atanLocal, if_pos hf]; exact hr, ?_⟩
    have ep : ((coef (14050327, 41) + evalPoly [(16766853, 24), (10384919, 30), (-13036263, 25), (1161891, 23), (4417271, 26), (-10600087, 28)] (val f y) : ℚ) : ℝ) =
        atanP (val f y) := by
      rw [atanP]
      norm_num [evalPoly, coef, Finset.sum_range_succ]
      ring
    have hc' : |(val f r : ℝ) - atanP (val f y)| ≤ (atanErr f d : ℝ) := by
      rw [← ep]
      have : |val f r - (coef (14050327, 41) + evalPoly [(16766853, 24), (10384919, 30), (-13036263, 25), (1161891, 23), (4417271, 26), (-10600087, 28)] (val f y))| ≤ atanErr f d := by
        refine hc.trans ?_
        rw [atanErr]
        refine add_le_add (mul_le_mul_of_nonneg_right (by linarith) hδ0) (mul_le_mul_of_nonneg_right (by norm_num) hu0)
      exact_mod_cast this
    have hlip := atanP_lipschitz (val f y) q (by linarith) hu (by linarith) (by linarith)
    have hcl := atanP_close q h0 h1
    have ee : (atanEta f : ℝ) = 9 / 1000000 := by rw [atanEta, if_pos hf]; norm_num
    rw [ee]
    have := abs_add_three ((val f r : ℝ) - atanP (val f y)) (atanP (val f y) - atanP q) (atanP q - Real.arctan q)
    rw [show (val f r : ℝ) - atanP (val f y) + (atanP (val f y) - atanP q) + (atanP q - Real.arctan q) = val f r - Real.arctan q by ring] at this
    linarith
  · have hs : |coef (16446219, 51)| + coefSum [(1048575, 20), (606877, 34), (-5602423, 24), (2940209, 29), (11396473, 26), (3533681, 25),
        (-3179781, 23), (5527531, 24), (-4487745, 25), (2955899, 27)] ≤ 3 - 1 / 100 := by
      norm_num [coefSum, coef, Finset.sum_range_succ, abs_of_pos, abs_of_neg]
    have hs2 : coefTrunc [(1048575, 20), (606877, 34), (-5602423, 24), (2940209, 29), (11396473, 26), (3533681, 25),
        (-3179781, 23), (5527531, 24), (-4487745, 25), (2955899, 27)] ≤ 8 := by
      norm_num [coefTrunc, coef, Finset.sum_range_succ, abs_of_pos, abs_of_neg]
    obtain ⟨r, hr, hc⟩ := poly_wide hw ht hR hd (16446219, 51) [(1048575, 20), (606877, 34), (-5602423, 24), (2940209, 29), (11396473, 26), (3533681, 25),
        (-3179781, 23), (5527531, 24), (-4487745, 25), (2955899, 27)] (by simp) (by simp) (lt_of_lt_of_le (mul_lt_mul_of_pos_right (by linarith) hp2) hR8q) y hyM
    refine ⟨r, by rw [atanLocal, if_neg hf]; exact hr, ?_⟩
    have ep : ((coef (16446219, 51) + evalPoly [(1048575, 20), (606877, 34), (-5602423, 24), (2940209, 29), (11396473, 26), (3533681, 25),
        (-3179781, 23), (5527531, 24), (-4487745, 25), (2955899, 27)] (val f y) : ℚ) : ℝ) = atanPL (val f y) := by
      rw [atanPL]
      norm_num [evalPoly, coef, Finset.sum_range_succ]
      ring
    have hc' : |(val f r : ℝ) - atanPL (val f y)| ≤ (atanErr f d : ℝ) := by
      rw [← ep]
      have : |val f r - (coef (16446219, 51) + evalPoly [(1048575, 20), (606877, 34), (-5602423, 24), (2940209, 29), (11396473, 26), (3533681, 25),
        (-3179781, 23), (5527531, 24), (-4487745, 25), (2955899, 27)] (val f y))| ≤ atanErr f d := by
        refine hc.trans ?_
        rw [atanErr]
        refine add_le_add (mul_le_mul_of_nonneg_right (by linarith) hδ0) (mul_le_mul_of_nonneg_right (by norm_num) hu0)
      exact_mod_cast this
    have hlip := atanPL_lipschitz (val f y) q (by linarith) hu (by linarith) (by linarith)
    have hcl := atanPL_close q h0 h1
    have ee : (atanEta f : ℝ) = 11 / 100000000 := by rw [atanEta, if_neg hf]; norm_num
    rw [ee]
    have := abs_add_three ((val f r : ℝ) - atanPL (val f y)) (atanPL (val f y) - atanPL q) (atanPL q - Real.arctan q)
    rw [show (val f r : ℝ) - atanPL (val f y) + (atanPL (val f y) - atanPL q) + (atanPL q - Real.arctan q) = val f r - Real.arctan q by ring] at this
    linarith

/-- C92: with more than 20 fraction bits the polynomial misses the accuracy stated beside it, `1.4802815832055511e-9`, at one. -/
theorem c92_atan_large_error : (4 : ℝ) / 100000000 ≤ |atanPL 1 - Real.arctan 1| := by
  rw [Real.arctan_one]
  have h := Real.pi_gt_d20
  have e : atanPL 1 ≤ 3141592653589793 / 1000000000000000 / 4 - 4 / 100000000 := by rw [atanPL]; norm_num
  rw [abs_of_nonpos] <;> linarith

end Spu.Props

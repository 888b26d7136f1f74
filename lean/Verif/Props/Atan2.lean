import Verif.Props.Atan2Poly
import Verif.Props.Atan2Arg
import Verif.Props.ExpSigmoid

set_option autoImplicit false

/-! # C92: the angle of a secret point -/

namespace Spu.Props
open Spu.Model Spu.Model.HalRing Spu.Model.FxpDiv Spu.Model.PolyApprox Spu.Model.Atan2 Spu.Spec.Rounding Spu.Spec.FxpDiv

variable {w : ℕ}

/-- a hint that the divisor is positive changes nothing when it is -/
theorem divPos_eq (hw : 0 < w) (trunc : BitVec w → BitVec w) (f cfg : ℕ) (a b : BitVec w) (hb : 0 ≤ b.toInt) :
    divPos trunc f cfg a b = FxpDiv.div trunc f cfg a b := by
  have h0 : HalRing.msb b = 0 := by
    rw [hal_msb hw, decide_eq_false (not_lt.2 hb)]; rfl
  have hm (a b : BitVec w) : mux 0 a b = b := by simp [mux]
  simp only [divPos, FxpDiv.div, h0, hm]

/-- the constant `m / 2^s` close to `π` or `π/2` -/
theorem val_encPi (hw : 0 < w) (f s : ℕ) (c : ℝ) (hs : s = 48 ∧ c = Real.pi ∨ s = 49 ∧ c = Real.pi / 2) (h : 16 * 2 ^ f ≤ (2 : ℚ) ^ (w - 1)) :
    |(val f (encZ w f 884279719003555 s) : ℝ) - c| ≤ 1 / 2 ^ f + 1 / 1000000000000000 ∧ |val f (encZ w f 884279719003555 s)| ≤ 4 := by
  have hpf : (0 : ℚ) < 2 ^ f := by positivity
  have h3 : (3 : ℚ) * 2 ^ 49 ≤ 2 ^ s * 8 := by rcases hs with ⟨rfl, _⟩ | ⟨rfl, _⟩ <;> norm_num
  obtain ⟨a, b⟩ := val_encZ hw f 884279719003555 s (by
    have : ((|884279719003555| * 2 ^ f : ℤ) : ℚ) < ((2 ^ (w - 1) * 2 ^ s : ℤ) : ℚ) := by
      push_cast
      norm_num at h3 ⊢
      nlinarith
    exact_mod_cast this)
  refine ⟨?_, b.trans ?_⟩
  · have a' : |(val f (encZ w f 884279719003555 s) : ℝ) - 884279719003555 / 2 ^ s| ≤ 1 / 2 ^ f := by
      have := (Rat.cast_le (K := ℝ)).2 a
      push_cast at this; exact this
    have hc : |(884279719003555 : ℝ) / 2 ^ s - c| ≤ 1 / 1000000000000000 := by
      have g := Real.pi_gt_d20
      have l := Real.pi_lt_d20
      rcases hs with ⟨rfl, rfl⟩ | ⟨rfl, rfl⟩ <;> norm_num at g l ⊢ <;> rw [abs_le] <;> constructor <;> linarith
    have := abs_sub_le (val f (encZ w f 884279719003555 s) : ℝ) (884279719003555 / 2 ^ s) c
    linarith
  · rcases hs with ⟨rfl, _⟩ | ⟨rfl, _⟩ <;> norm_num

/-- selecting between a word and its reflection -/
theorem reflect (hw : 0 < w) (f : ℕ) (h16 : 16 * 2 ^ f ≤ (2 : ℚ) ^ (w - 1)) (p : Prop) [Decidable p] (C θ : BitVec w) (c φ ε κ : ℝ)
    (hC : |(val f C : ℝ) - c| ≤ κ) (hCm : |val f C| ≤ 4) (hθm : |φ| ≤ 4) (hκ : 0 ≤ κ) (hε : ε ≤ 2) (hθ : |(val f θ : ℝ) - φ| ≤ ε) :
    |(val f (mux (bit (decide p)) (sub C θ) θ) : ℝ) - (if p then c - φ else φ)| ≤ ε + κ := by
  rw [c37_mux]
  by_cases hp : p
  · simp only [hp, decide_true, if_true]
    have hm : |(val f θ : ℝ)| ≤ 6 := by
      have := abs_add_le ((val f θ : ℝ) - φ) φ
      rw [sub_add_cancel] at this; linarith
    have hm : |val f θ| ≤ 6 := by exact_mod_cast hm
    have hpf : (0 : ℚ) < 2 ^ f := by positivity
    have hs : |val f C - val f θ| ≤ 10 := (abs_sub _ _).trans (by linarith)
    rw [val_sub hw f C θ (by nlinarith)]
    push_cast
    have := abs_sub ((val f C : ℝ) - c) ((val f θ : ℝ) - φ)
    rw [show (val f C : ℝ) - c - ((val f θ : ℝ) - φ) = val f C - val f θ - (c - φ) by ring] at this
    linarith
  · simp only [hp, decide_false, Bool.false_eq_true, if_false]
    linarith

/-- the error of the ratio of the smaller to the larger coordinate `b` after `n` iterations -/
def ratioErr (f d n : ℕ) (b : ℚ) : ℚ := errBound (d / 2 ^ f) n (1 / 10) (d / 2 ^ f) + 4 * (d / 2 ^ f) + d / 2 ^ f * (1 + 1 / b)

set_option maxHeartbeats 1600000 in
/-- C92: the angle, for every truncation with a bounded error. -/
theorem c92_atan2 (t f d : ℕ) (R : ℤ) (T : ℕ → BitVec (2 ^ t) → BitVec (2 ^ t)) (ht : TruncOk f d R (T f))
    (hf : 2 * f < 2 ^ t) (hf8 : 8 ≤ f) (hR : R ≤ 2 ^ (2 ^ t - 1)) (hR3 : 4 * 2 ^ (3 * f) ≤ R) (hu : (d : ℚ) / 2 ^ f ≤ 1 / 256)
    (cfg n : ℕ) (hn : numIters cfg f = some n) (hnu : (11 / 10 : ℚ) ^ n * (31 * (d / 2 ^ f)) ≤ 1 / 2)
    (y x : BitVec (2 ^ t)) (h0 : 0 < max |val f x| |val f y|) (hxm : |val f x| < 2 ^ f) (hym : |val f y| < 2 ^ f)
    (hE : ratioErr f d n (max |val f x| |val f y|) ≤ 1 / 16) :
    ∃ r, atan2 T f cfg y x = some r ∧ |(val f r : ℝ) - Complex.arg ⟨val f x, val f y⟩| ≤
      atanEta f + 101 / 100 * ratioErr f d n (max |val f x| |val f y|) + atanErr f d + 2 * (1 / 2 ^ f + 1 / 1000000000000000) := by
  have hw : 0 < 2 ^ t := by positivity
  have hpf : (0 : ℚ) < 2 ^ f := by positivity
  have hδ0 : (0 : ℚ) ≤ d / 2 ^ f := by positivity
  have hRq : (R : ℚ) ≤ 2 ^ (2 ^ t - 1) := by exact_mod_cast hR
  have hR3q : 4 * 2 ^ (3 * f) ≤ (R : ℚ) := by exact_mod_cast hR3
  have h3f : (2 : ℚ) ^ (3 * f) = 2 ^ f * 2 ^ (2 * f) := by rw [← pow_add]; congr 1; omega
  have h2f : (2 : ℚ) ^ (2 * f) = 2 ^ f * 2 ^ f := by rw [← pow_add]; congr 1; omega
  have h256 : (256 : ℚ) ≤ 2 ^ f := by
    calc (256 : ℚ) = 2 ^ 8 := by norm_num
      _ ≤ 2 ^ f := pow_le_pow_right₀ (by norm_num) hf8
  have hp2 : (0 : ℚ) < 2 ^ (2 * f) := by positivity
  have h2R : 1024 * 2 ^ (2 * f) ≤ (R : ℚ) := by rw [h3f] at hR3q; nlinarith
  have h16 : 16 * 2 ^ f ≤ (2 : ℚ) ^ (2 ^ t - 1) := by rw [h2f] at h2R; nlinarith
  have hpw : 2 ^ (2 * f) < (2 : ℚ) ^ (2 ^ t - 1) := by linarith
  have hmin : ∀ v : BitVec (2 ^ t), |val f v| < 2 ^ f → |v.toInt| < 2 ^ (2 ^ t - 1) := by
    intro v hv
    have : |(v.toInt : ℚ)| < 2 ^ (2 ^ t - 1) := by
      rw [← val_mul_pow f v, abs_mul, abs_of_pos hpf]
      rw [h2f] at hpw; nlinarith
    exact_mod_cast this
  obtain ⟨hXi, hXv⟩ := babs hw f x (hmin x hxm)
  obtain ⟨hYi, hYv⟩ := babs hw f y (hmin y hym)
  set ax := mux (HalRing.msb x) (-x) x with hax
  set ay := mux (HalRing.msb y) (-y) y with hay
  -- the comparison
  have hcmp : less ax ay = bit (decide (|val f x| < |val f y|)) := by
    rw [less_ok hw (by
      unfold NoOverflow; rw [hXi, hYi]
      have a := abs_nonneg x.toInt; have b := abs_nonneg y.toInt
      have c := hmin x hxm; have d := hmin y hym
      constructor <;> omega)]
    congr 1
    rw [hXi, hYi]
    refine decide_eq_decide.2 ?_
    rw [val, val, abs_div, abs_div, abs_of_pos hpf, div_lt_div_iff_of_pos_right hpf]
    norm_cast
  set bg := mux (less ax ay) ay ax with hbg
  set sm := sub (ax + ay) bg with hsm
  have hbgv : val f bg = max |val f x| |val f y| := by
    rw [hbg, hcmp, c37_mux]
    by_cases hl : |val f x| < |val f y|
    · simp only [hl, decide_true, if_true]; rw [hYv, max_eq_right hl.le]
    · simp only [hl, decide_false, Bool.false_eq_true, if_false]; rw [hXv, max_eq_left (not_lt.1 hl)]
  have hsmv : val f sm = min |val f x| |val f y| := by
    have hX0 := abs_nonneg (val f x)
    have hY0 := abs_nonneg (val f y)
    have e1 : val f (ax + ay) = |val f x| + |val f y| := by
      rw [val_add hw f ax ay, hXv, hYv]
      rw [hXv, hYv, abs_of_nonneg (by linarith)]
      rw [h2f] at h2R
      nlinarith
    have e2 : |val f x| + |val f y| - max |val f x| |val f y| = min |val f x| |val f y| := by
      have := max_add_min |val f x| |val f y|; linarith
    rw [hsm, val_sub hw f _ _, e1, hbgv, e2]
    rw [e1, hbgv, e2, abs_of_nonneg (le_min hX0 hY0)]
    have := min_le_left |val f x| |val f y|
    rw [h2f] at h2R
    nlinarith
  have hBm : max |val f x| |val f y| < 2 ^ f := max_lt hxm hym
  set B := max |val f x| |val f y| with hB
  set S := min |val f x| |val f y| with hS
  have hS0 : 0 ≤ S := le_min (abs_nonneg _) (abs_nonneg _)
  have hSB : S ≤ B := min_le_max
  have hbgi : 0 ≤ bg.toInt := (val_neg_iff f bg).1 (by rw [hbgv]; exact h0.le)
  have hr0 : 0 ≤ errBound ((d : ℚ) / 2 ^ f) n (1 / 10) (d / 2 ^ f) := by
    have : ∀ (n : ℕ) (u E D : ℚ), 0 ≤ u → 0 ≤ E → 0 ≤ D → 0 ≤ errBound u n E D := by
      intro n
      induction n using Nat.strong_induction_on with
      | _ n ih =>
        intro u E D hu hE hD
        match n with
        | 0 => rw [errBound]; positivity
        | 1 => rw [errBound]; positivity
        | n + 2 => rw [errBound]; exact ih (n + 1) (by omega) _ _ _ hu (by positivity) (by positivity)
    exact this n _ _ _ hδ0 (by norm_num) hδ0
  -- the ratio
  have hδB : (d : ℚ) / 2 ^ f ≤ B := by
    rw [ratioErr] at hE
    have h1 : (d : ℚ) / 2 ^ f * (1 / B) ≤ 1 / 16 := by nlinarith
    rw [mul_one_div, div_le_iff₀ h0] at h1
    linarith
  obtain ⟨q, hq, hqc⟩ := c73_div t f d R (T f) ht hf hf8 hR (by
      have : (4 * 2 ^ (2 * f) : ℚ) ≤ R := by linarith
      exact_mod_cast this) hu cfg n hn hnu sm bg (by rw [hbgv]; exact h0.ne') (by rw [hbgv, abs_of_pos h0]; exact hBm)
    (by rw [hsmv, abs_of_nonneg hS0]; rw [h3f] at hR3q; nlinarith)
    (by rw [hsmv, hbgv, abs_of_nonneg hS0, abs_of_pos h0]; nlinarith)
  rw [hsmv, hbgv, abs_of_pos h0, abs_of_nonneg (div_nonneg hS0 h0.le)] at hqc
  have hq1 : S / B ≤ 1 := (div_le_one h0).2 hSB
  have hq0 : 0 ≤ S / B := div_nonneg hS0 h0.le
  have hqE : |val f q - S / B| ≤ ratioErr f d n B := by
    refine hqc.trans ?_
    rw [ratioErr]
    have : S / B * (errBound (↑d / 2 ^ f) n (1 / 10) (↑d / 2 ^ f) + 4 * (d / 2 ^ f)) ≤ 1 * (errBound (↑d / 2 ^ f) n (1 / 10) (↑d / 2 ^ f) + 4 * (d / 2 ^ f)) :=
      mul_le_mul_of_nonneg_right hq1 (by positivity)
    linarith
  obtain ⟨θ, hθ, hθc⟩ := c92_atan_local hw ht hR hu (by
      have : (8 * 2 ^ (2 * f) : ℚ) ≤ R := by linarith
      exact_mod_cast this) q ((S / B : ℚ) : ℝ) (by exact_mod_cast hq0) (by exact_mod_cast hq1) ((ratioErr f d n B : ℚ) : ℝ)
    (by
      have : ((ratioErr f d n B : ℚ) : ℝ) ≤ ((1 / 16 : ℚ) : ℝ) := by exact_mod_cast hE
      push_cast at this; exact this) (by exact_mod_cast hqE)
  set ε : ℝ := atanEta f + 101 / 100 * ratioErr f d n B + atanErr f d with hε
  set κ : ℝ := 1 / 2 ^ f + 1 / 1000000000000000 with hκ
  have hκ0 : 0 ≤ κ := by positivity
  have hu1 : (1 : ℚ) / 2 ^ f ≤ 1 / 256 := one_div_le_one_div_of_le (by norm_num) h256
  have hκ1 : κ ≤ 1 / 100 := by
    have : (1 : ℝ) / 2 ^ f ≤ 1 / 256 := by
      have := (Rat.cast_le (K := ℝ)).2 hu1
      push_cast at this; exact this
    rw [hκ]; linarith
  have hε1 : ε ≤ 1 := by
    have : atanEta f + 101 / 100 * ratioErr f d n B + atanErr f d ≤ 1 := by
      have : atanEta f ≤ 1 / 100000 := by rw [atanEta]; split <;> norm_num
      rw [atanErr]; linarith
    have := (Rat.cast_le (K := ℝ)).2 this
    push_cast at this; exact this
  set φ := Real.arctan ((S / B : ℚ) : ℝ) with hφ
  have hpi := Real.pi_pos
  have hpi4 := Real.pi_le_four
  have hφ0 : 0 ≤ φ := Real.arctan_nonneg.2 (by exact_mod_cast hq0)
  have hφ1 : φ ≤ Real.pi / 4 := by
    rw [hφ, ← Real.arctan_one]; exact Real.arctan_strictMono.monotone (by exact_mod_cast hq1)
  -- the three reflections
  obtain ⟨a1, b1⟩ := val_encPi hw f 49 (Real.pi / 2) (Or.inr ⟨rfl, rfl⟩) h16
  obtain ⟨a2, b2⟩ := val_encPi hw f 48 Real.pi (Or.inl ⟨rfl, rfl⟩) h16
  have c1 := reflect hw f h16 (|val f x| < |val f y|) _ θ _ φ ε κ a1 b1 (by rw [abs_of_nonneg hφ0]; linarith) hκ0 (by linarith) hθc
  rw [← hcmp] at c1
  set θ1 := mux (less ax ay) (sub (encZ (2 ^ t) f 884279719003555 49) θ) θ with hθ1
  set φ1 := (if |val f x| < |val f y| then Real.pi / 2 - φ else φ) with hφ1'
  have hφ1r : 0 ≤ φ1 ∧ φ1 ≤ Real.pi / 2 := by rw [hφ1']; split <;> constructor <;> linarith
  have c2 := reflect hw f h16 (x.toInt < 0) _ θ1 _ φ1 (ε + κ) κ a2 b2 (by rw [abs_of_nonneg hφ1r.1]; linarith) hκ0 (by linarith) c1
  rw [← hal_msb hw] at c2
  set θ2 := mux (HalRing.msb x) (sub (encZ (2 ^ t) f 884279719003555 48) θ1) θ1 with hθ2
  set φ2 := (if x.toInt < 0 then Real.pi - φ1 else φ1) with hφ2'
  have hφ2r : 0 ≤ φ2 ∧ φ2 ≤ Real.pi := by rw [hφ2']; split <;> constructor <;> linarith [hφ1r.1, hφ1r.2]
  refine ⟨mux (HalRing.msb y) (-θ2) θ2, ?_, ?_⟩
  · simp only [atan2, ← hax, ← hay, ← hbg, ← hsm, divPos_eq hw (T f) f cfg sm bg hbgi, hq, hθ, Option.bind_eq_bind, Option.bind_some, ← hθ1, ← hθ2]
    rfl
  · have hneg (v : BitVec (2 ^ t)) : ((val f v : ℝ) < 0) ↔ v.toInt < 0 := by
      have := val_neg_iff f v
      rw [← not_le, ← not_le, ← this]
      norm_cast
    have hBr : (max |(val f x : ℝ)| |(val f y : ℝ)|) = ((B : ℚ) : ℝ) := by rw [hB]; push_cast; rfl
    have hSr : (min |(val f x : ℝ)| |(val f y : ℝ)|) = ((S : ℚ) : ℝ) := by rw [hS]; push_cast; rfl
    have harg : Complex.arg ⟨val f x, val f y⟩ = if y.toInt < 0 then -φ2 else φ2 := by
      rw [arg_remap _ _ (by rw [hBr]; exact_mod_cast h0), hBr, hSr, remap]
      have e : (|(val f x : ℝ)| < |(val f y : ℝ)|) ↔ |val f x| < |val f y| := by norm_cast
      have e2 : ((S : ℚ) : ℝ) / ((B : ℚ) : ℝ) = ((S / B : ℚ) : ℝ) := by push_cast; rfl
      simp only [e, hneg, e2, ← hφ, ← hφ1', ← hφ2']
    rw [harg, hal_msb hw, c37_mux]
    by_cases hyn : y.toInt < 0
    · simp only [hyn, decide_true, if_true]
      have hm : |(val f θ2 : ℝ)| ≤ 6 := by
        have := abs_add_le ((val f θ2 : ℝ) - φ2) φ2
        rw [sub_add_cancel, abs_of_nonneg hφ2r.1] at this; linarith [hφ2r.2]
      have hm : |val f θ2| ≤ 6 := by exact_mod_cast hm
      rw [val_neg hw f θ2 (by nlinarith)]
      push_cast
      rw [← neg_sub', abs_neg]
      linarith
    · simp only [hyn, decide_false, Bool.false_eq_true, if_false]
      linarith

/-- C92: with the default two iterations. -/
theorem c92_atan2_two (t f d : ℕ) (R : ℤ) (T : ℕ → BitVec (2 ^ t) → BitVec (2 ^ t)) (ht : TruncOk f d R (T f))
    (hf : 2 * f < 2 ^ t) (hf8 : 8 ≤ f) (hf20 : f ≤ 20) (hR : R ≤ 2 ^ (2 ^ t - 1)) (hR3 : 4 * 2 ^ (3 * f) ≤ R) (hu : (d : ℚ) / 2 ^ f ≤ 1 / 1024)
    (y x : BitVec (2 ^ t)) (hxm : |val f x| < 2 ^ f) (hym : |val f y| < 2 ^ f) (h0 : 0 < max |val f x| |val f y|)
    (hB : 20 * (d / 2 ^ f) ≤ max |val f x| |val f y|) :
    ∃ r, atan2 T f 2 y x = some r ∧ |(val f r : ℝ) - Complex.arg ⟨val f x, val f y⟩| ≤
      12 / 100000 + 28 * (d / 2 ^ f) + 11 / 10 * (d / 2 ^ f / max |val f x| |val f y|) + 24 * (1 / 2 ^ f) := by
  have hδ0 : (0 : ℚ) ≤ d / 2 ^ f := by positivity
  have he := errBound_two hδ0 (hu.trans (by norm_num))
  have hr : ratioErr f d 2 (max |val f x| |val f y|) ≤ 1 / 10000 + 10 * (d / 2 ^ f) + d / 2 ^ f / max |val f x| |val f y| := by
    rw [ratioErr, mul_add, mul_one_div]; linarith
  have hq : (d : ℚ) / 2 ^ f / max |val f x| |val f y| ≤ 1 / 20 := by rw [div_le_iff₀ h0]; linarith
  have hq0 : 0 ≤ (d : ℚ) / 2 ^ f / max |val f x| |val f y| := by positivity
  obtain ⟨r, h1, h2⟩ := c92_atan2 t f d R T ht hf hf8 hR hR3 (hu.trans (by norm_num)) 2 2 (by simp [numIters, Nat.not_le.2 (by omega : f < 30)])
    (by norm_num at hu ⊢; linarith) y x h0 hxm hym (by linarith)
  refine ⟨r, h1, h2.trans ?_⟩
  have hη : atanEta f = 9 / 1000000 := by rw [atanEta, if_pos hf20]
  have hu20 : (1 : ℚ) / 1048576 ≤ 1 / 2 ^ f := by
    have : (2 : ℚ) ^ f ≤ 2 ^ 20 := pow_le_pow_right₀ (by norm_num) hf20
    exact one_div_le_one_div_of_le (by positivity) (this.trans (by norm_num))
  have key : atanEta f + 101 / 100 * ratioErr f d 2 (max |val f x| |val f y|) + atanErr f d + 2 * (1 / 2 ^ f + 1 / 1000000000000000) ≤
      12 / 100000 + 28 * (d / 2 ^ f) + 11 / 10 * (d / 2 ^ f / max |val f x| |val f y|) + 24 * (1 / 2 ^ f) := by
    rw [hη, atanErr]; linarith
  have := (Rat.cast_le (K := ℝ)).2 key
  push_cast at this ⊢
  exact this

/-- C92 (finding): from `2^f` on the ratio is a truncated zero, so that the point `(2^18, 2^18)` seems to lie on the axis;
for the smallest points the ratio is off by almost one half, and so is the angle of the diagonal. -/
theorem c92_range :
    atan2 (fun b (v : BitVec (2 ^ 6)) => v.sshiftRight b) 18 2 (BitVec.ofInt _ (2 ^ 36)) (BitVec.ofInt _ (2 ^ 36)) = some 1 ∧
    atan2 (fun b (v : BitVec (2 ^ 6)) => v.sshiftRight b) 18 2 (BitVec.ofInt _ (2 ^ 35)) (BitVec.ofInt _ (2 ^ 35)) = some 205884 ∧
    atan2 (fun b (v : BitVec (2 ^ 6)) => v.sshiftRight b) 18 2 1 1 = some 121541 := by
  decide +kernel

/-- the hypotheses with 18 fraction bits in words of 64 bits: the point `(-1/2, 1)` -/
example : (∃ r, atan2 (fun b (v : BitVec (2 ^ 6)) => v.sshiftRight b) 18 2 (BitVec.ofInt _ (2 ^ 18)) (BitVec.ofInt _ (-2 ^ 17)) = some r ∧
      |(val 18 r : ℝ) - Complex.arg ⟨val 18 (BitVec.ofInt (2 ^ 6) (-2 ^ 17)), val 18 (BitVec.ofInt (2 ^ 6) (2 ^ 18))⟩| ≤
        12 / 100000 + 28 * ((1 : ℕ) / 2 ^ 18) + 11 / 10 * ((1 : ℕ) / 2 ^ 18 / max |(val 18 (BitVec.ofInt (2 ^ 6) (-2 ^ 17)) : ℚ)| |(val 18 (BitVec.ofInt (2 ^ 6) (2 ^ 18)) : ℚ)|) +
          24 * (1 / 2 ^ 18)) ∧
    atan2 (fun b (v : BitVec (2 ^ 6)) => v.sshiftRight b) 18 2 (BitVec.ofInt _ (2 ^ 18)) (BitVec.ofInt _ (-2 ^ 17)) = some 533316 := by
  have hx : (BitVec.ofInt (2 ^ 6) (-2 ^ 17)).toInt = -2 ^ 17 := by decide +kernel
  have hy : (BitVec.ofInt (2 ^ 6) (2 ^ 18)).toInt = 2 ^ 18 := by decide +kernel
  have vx : val 18 (BitVec.ofInt (2 ^ 6) (-2 ^ 17)) = -(1 / 2) := by rw [val, hx]; norm_num
  have vy : val 18 (BitVec.ofInt (2 ^ 6) (2 ^ 18)) = 1 := by rw [val, hy]; norm_num
  refine ⟨?_, by decide +kernel⟩
  have h := c92_atan2_two 6 18 1 (2 ^ 62) (fun b v => v.sshiftRight b) (truncOk_sar 18 (2 ^ 62)) (by norm_num) (by norm_num) (by norm_num) (by norm_num) (by norm_num) (by norm_num)
    (BitVec.ofInt _ (2 ^ 18)) (BitVec.ofInt _ (-2 ^ 17)) (by rw [vx]; norm_num [abs_of_pos]) (by rw [vy]; norm_num) (by rw [vx, vy]; norm_num)
    (by rw [vx, vy]; norm_num [abs_of_pos])
  exact h

end Spu.Props

import Verif.Props.ExpPrimeEval
import Mathlib.Analysis.SpecialFunctions.Log.Deriv
import Mathlib.Analysis.Complex.ExponentialBounds

set_option autoImplicit false

/-! # C84: the result of the exponentiation as a real number -/

namespace Spu.Props.ExpPrime
open Spu.Model.Gfmp Spu.Model.ExpPrime Spu.Spec.ExpPrime

variable {w q : ℕ}

theorem prod_close {A B a b δ : ℝ} (hA : 0 ≤ A) (hB : 0 ≤ B) (hδ : 0 ≤ δ) (ha : |a - A| ≤ δ * A) (hb : |b - B| ≤ δ * B) :
    |a * b - A * B| ≤ (2 * δ + δ ^ 2) * (A * B) := by
  have e : a * b - A * B = (a - A) * (b - B) + (a - A) * B + A * (b - B) := by ring
  rw [e]
  have h1 : |(a - A) * (b - B)| ≤ δ * A * (δ * B) := by
    rw [abs_mul]; exact mul_le_mul ha hb (abs_nonneg _) (by positivity)
  have h2 : |(a - A) * B| ≤ δ * A * B := by rw [abs_mul, abs_of_nonneg hB]; exact mul_le_mul_of_nonneg_right ha hB
  have h3 : |A * (b - B)| ≤ A * (δ * B) := by rw [abs_mul, abs_of_nonneg hA]; exact mul_le_mul_of_nonneg_left hb hA
  have h4 := abs_add_le ((a - A) * (b - B) + (a - A) * B) (A * (b - B))
  have h5 := abs_add_le ((a - A) * (b - B)) ((a - A) * B)
  nlinarith

/-- the exact product approximates a power of two -/
theorem prodZ_close (c : Cfg w) (F : BitVec w → BitVec w) (e : ℕ) (δ : ℝ) (hδ : 0 ≤ δ)
    (hF : Rounded c.fxp (c.kExp + c.fxp) e δ F) (ht : c.kExp + c.fxp < w) (x0 x1 : BitVec w)
    (ha : 0 ≤ ipart c 0 x0 + ipart c 1 x1 + 2 * e) :
    |(prodZ c F e x0 x1 : ℝ) -
        (2 : ℝ) ^ (2 * (c.fxp : ℝ) + (((scaled c 0 x0).toInt + (scaled c 1 x1).toInt : ℤ) : ℝ) / 2 ^ (c.kExp + c.fxp))| ≤
      (2 * δ + δ ^ 2) *
        (2 : ℝ) ^ (2 * (c.fxp : ℝ) + (((scaled c 0 x0).toInt + (scaled c 1 x1).toInt : ℤ) : ℝ) / 2 ^ (c.kExp + c.fxp)) := by
  have f0 := fpart_lt c ht 0 x0
  have f1 := fpart_lt c ht 1 x1
  have s0 := split_share c ht 0 x0
  have s1 := split_share c ht 1 x1
  obtain ⟨g0, hg0⟩ := hF.multiple _ f0
  obtain ⟨g1, hg1⟩ := hF.multiple _ f1
  have c0 := hF.close _ f0
  have c1 := hF.close _ f1
  set t := c.kExp + c.fxp
  set a := ipart c 0 x0 + ipart c 1 x1 with hadef
  set A := (2 : ℝ) ^ ((c.fxp : ℝ) + ((fpart c 0 x0).toNat : ℝ) / 2 ^ t) with hA
  set B := (2 : ℝ) ^ ((c.fxp : ℝ) + ((fpart c 1 x1).toNat : ℝ) / 2 ^ t) with hB
  have hZ : (prodZ c F e x0 x1 : ℝ) = ((F (fpart c 0 x0)).toNat : ℝ) * ((F (fpart c 1 x1)).toNat : ℝ) * (2 : ℝ) ^ a := by
    unfold prodZ
    rw [hg0, hg1, Nat.mul_div_cancel_left _ (Nat.two_pow_pos e), Nat.mul_div_cancel_left _ (Nat.two_pow_pos e)]
    push_cast
    have t1 : (2 : ℝ) ^ (a + 2 * e).toNat = 2 ^ a * (2 ^ e * 2 ^ e) := by
      rw [← zpow_natCast, Int.toNat_of_nonneg ha, zpow_add₀ (by norm_num), ← pow_add, ← zpow_natCast (2 : ℝ) (e + e)]
      congr 2
      push_cast
      ring
    rw [t1]
    ring
  have hP : (2 : ℝ) ^ (2 * (c.fxp : ℝ) + (((scaled c 0 x0).toInt + (scaled c 1 x1).toInt : ℤ) : ℝ) / 2 ^ t) = A * B * (2 : ℝ) ^ a := by
    rw [hA, hB, ← Real.rpow_intCast 2 a, ← Real.rpow_add (by norm_num), ← Real.rpow_add (by norm_num)]
    congr 1
    rw [s0, s1, hadef]
    have : (2 : ℝ) ^ t ≠ 0 := by positivity
    push_cast
    field_simp
    ring
  rw [hZ, hP, ← sub_mul, abs_mul, abs_of_pos (show (0 : ℝ) < 2 ^ a by positivity), ← mul_assoc]
  apply mul_le_mul_of_nonneg_right _ (by positivity)
  exact prod_close (by positivity) (by positivity) hδ c0 c1

/-- C84: the outputs of `ExpA` are shares of `2^fxp · 2^(x · scale / 2^kExp)`, `x` the fixed-point input, up to two
units and the relative error of two rounded factors. -/
theorem c84_exp {mul : BitVec w → BitVec w → BitVec w × BitVec w} (hmul : MulOk mul) (hprime : (2 ^ q - 1).Prime)
    (h5 : 5 ≤ q) (hq : q < w) (hw : w ≤ 128) (c : Cfg w) (F : BitVec w → BitVec w) (e : ℕ) (δ : ℝ) (hδ : 0 ≤ δ) (hδ5 : δ ≤ 1 / 5)
    (hF : Rounded c.fxp (c.kExp + c.fxp) e δ F) (hf64 : c.fxp < 64) (ht : c.kExp + c.fxp < w) (hs : w < q + c.fxp) (hfq : c.fxp + 1 < q)
    (dp dr : Deal w) (hdp : DealOk q dp) (hdr : dr.c0 + dr.c1 = dr.a * dr.b) (hn : c.offset + c.fxp ≤ q)
    (x0 x1 : BitVec w) (hone : OneNegative (scaled c 0 x0) (scaled c 1 x1)) (X : ℤ)
    (hX : X = (x0 + x1).toInt * c.scale.toInt + c.offset * 2 ^ (c.kExp + c.fxp)) (hXlo : -2 ^ (w - 1) ≤ X) (hXhi : X < 2 ^ (w - 1))
    (hlo : (1 - 2 * (e : ℤ)) * 2 ^ (c.kExp + c.fxp) ≤ X) (hhi : X ≤ ((q : ℤ) - 2 - 2 * c.fxp) * 2 ^ (c.kExp + c.fxp)) :
    ∃ o0 o1, expA mul q c F dp dr x0 x1 = some (o0, o1) ∧ ∃ v : ℤ, o0 + o1 = BitVec.ofInt w v ∧
      |(v : ℝ) - 2 ^ c.fxp * (2 : ℝ) ^ (((x0 + x1).toInt * c.scale.toInt : ℤ) / (2 : ℝ) ^ (c.kExp + c.fxp))| ≤
        2 + (2 * δ + δ ^ 2) * (2 ^ c.fxp * (2 : ℝ) ^ (((x0 + x1).toInt * c.scale.toInt : ℤ) / (2 : ℝ) ^ (c.kExp + c.fxp))) := by
  have hsum := scaled_toInt_sum c (by omega) x0 x1 hone (by rw [← hX]; exact hXlo) (by rw [← hX]; exact hXhi)
  rw [← hX] at hsum
  have s0 := split_share c ht 0 x0
  have s1 := split_share c ht 1 x1
  have f0 := fpart_lt c ht 0 x0
  have f1 := fpart_lt c ht 1 x1
  have hpos : (0 : ℤ) < 2 ^ (c.kExp + c.fxp) := by positivity
  have ha : 0 ≤ ipart c 0 x0 + ipart c 1 x1 + 2 * e := by
    have g0 : ((fpart c 0 x0).toNat : ℤ) < 2 ^ (c.kExp + c.fxp) := by exact_mod_cast f0
    have g1 : ((fpart c 1 x1).toNat : ℤ) < 2 ^ (c.kExp + c.fxp) := by exact_mod_cast f1
    have : 0 < (ipart c 0 x0 + ipart c 1 x1 + 2 * e + 1) * 2 ^ (c.kExp + c.fxp) := by nlinarith
    have := (mul_pos_iff_of_pos_right hpos).1 this
    omega
  have hclose := prodZ_close c F e δ hδ hF ht x0 x1 ha
  rw [hsum] at hclose
  set P := (2 : ℝ) ^ (2 * (c.fxp : ℝ) + (X : ℝ) / 2 ^ (c.kExp + c.fxp)) with hPdef
  have hP0 : 0 < P := by positivity
  have hPle : P ≤ 2 ^ (q - 2) := by
    rw [hPdef, ← Real.rpow_natCast 2 (q - 2)]
    apply Real.rpow_le_rpow_of_exponent_le (by norm_num)
    have : (X : ℝ) / 2 ^ (c.kExp + c.fxp) ≤ (q : ℝ) - 2 - 2 * c.fxp := by
      rw [div_le_iff₀ (by positivity)]
      exact_mod_cast hhi
    rw [Nat.cast_sub (by omega)]
    push_cast
    linarith
  have hZlt : prodZ c F e x0 x1 < (2 ^ q - 2) / 2 := by
    have e1 : 2 ^ q = 4 * 2 ^ (q - 2) := by
      rw [show (4 : ℕ) = 2 ^ 2 by norm_num, ← pow_add]; congr 1; omega
    have e2 : 8 ≤ 2 ^ (q - 2) := by
      calc 8 = 2 ^ 3 := by norm_num
        _ ≤ 2 ^ (q - 2) := Nat.pow_le_pow_right (by omega) (by omega)
    have e3 : (8 : ℝ) ≤ 2 ^ (q - 2) := by exact_mod_cast e2
    have h1 := (abs_le.1 hclose).2
    have h2 : (2 * δ + δ ^ 2) * P ≤ (11 / 25) * P := by
      apply mul_le_mul_of_nonneg_right _ hP0.le
      nlinarith
    have h3 : (prodZ c F e x0 x1 : ℝ) < 2 * 2 ^ (q - 2) - 1 := by linarith
    have h4 : prodZ c F e x0 x1 + 1 < 2 * 2 ^ (q - 2) := by
      have : ((prodZ c F e x0 x1 + 1 : ℕ) : ℝ) < ((2 * 2 ^ (q - 2) : ℕ) : ℝ) := by push_cast; linarith
      exact_mod_cast this
    omega
  have hFl : ∀ f : BitVec w, f.toNat < 2 ^ (c.kExp + c.fxp) → (F f).toNat ≤ 2 ^ q - 1 := by
    intro f hf
    have h1 := hF.le f hf
    have h2 : 2 ^ (c.fxp + 1) < 2 ^ q := Nat.pow_lt_pow_right (by omega) hfq
    omega
  obtain ⟨o0, o1, ho, v, hv, hb⟩ := c84_exp_int hmul hprime (by omega) hq hw c F e hf64 ht hs hF.multiple hFl dp dr hdp hdr hn x0 x1 hone ha hZlt
  refine ⟨o0, o1, ho, v, hv, ?_⟩
  set Q := 2 ^ c.fxp * (2 : ℝ) ^ (((x0 + x1).toInt * c.scale.toInt : ℤ) / (2 : ℝ) ^ (c.kExp + c.fxp)) with hQ
  have hPQ : P = Q * 2 ^ (c.offset + c.fxp) := by
    rw [hPdef, hQ, ← Real.rpow_natCast 2 c.fxp, ← Real.rpow_natCast 2 (c.offset + c.fxp), ← Real.rpow_add (by norm_num),
      ← Real.rpow_add (by norm_num)]
    congr 1
    rw [hX]
    have : (2 : ℝ) ^ (c.kExp + c.fxp) ≠ 0 := by positivity
    push_cast
    field_simp
    ring
  have hN : (0 : ℝ) < 2 ^ (c.offset + c.fxp) := by positivity
  have hZQ : |(prodZ c F e x0 x1 : ℝ) / 2 ^ (c.offset + c.fxp) - Q| ≤ (2 * δ + δ ^ 2) * Q := by
    have : (prodZ c F e x0 x1 : ℝ) / 2 ^ (c.offset + c.fxp) - Q = ((prodZ c F e x0 x1 : ℝ) - P) / 2 ^ (c.offset + c.fxp) := by
      rw [hPQ]; field_simp
    rw [this, abs_div, abs_of_pos hN, div_le_iff₀ hN]
    rw [hPQ] at hclose ⊢
    linarith
  have hfl : |((prodZ c F e x0 x1 / 2 ^ (c.offset + c.fxp) : ℕ) : ℝ) - (prodZ c F e x0 x1 : ℝ) / 2 ^ (c.offset + c.fxp)| ≤ 1 := by
    have hd := Nat.div_add_mod (prodZ c F e x0 x1) (2 ^ (c.offset + c.fxp))
    have hm := Nat.mod_lt (prodZ c F e x0 x1) (Nat.two_pow_pos (c.offset + c.fxp))
    have hd' : (2 : ℝ) ^ (c.offset + c.fxp) * ((prodZ c F e x0 x1 / 2 ^ (c.offset + c.fxp) : ℕ) : ℝ) +
        ((prodZ c F e x0 x1 % 2 ^ (c.offset + c.fxp) : ℕ) : ℝ) = prodZ c F e x0 x1 := by exact_mod_cast hd
    have hm' : ((prodZ c F e x0 x1 % 2 ^ (c.offset + c.fxp) : ℕ) : ℝ) < 2 ^ (c.offset + c.fxp) := by exact_mod_cast hm
    have hm0 : (0 : ℝ) ≤ ((prodZ c F e x0 x1 % 2 ^ (c.offset + c.fxp) : ℕ) : ℝ) := Nat.cast_nonneg _
    rw [← hd', abs_le]
    constructor
    · rw [add_div, mul_div_cancel_left₀ _ hN.ne']
      have := (div_le_one hN).2 hm'.le
      linarith
    · rw [add_div, mul_div_cancel_left₀ _ hN.ne']
      have := div_nonneg hm0 hN.le
      linarith
  have hb' : |(v : ℝ) - ((prodZ c F e x0 x1 / 2 ^ (c.offset + c.fxp) : ℕ) : ℝ)| ≤ 1 := by
    have : ((|v - ((prodZ c F e x0 x1 / 2 ^ (c.offset + c.fxp) : ℕ) : ℤ)| : ℤ) : ℝ) ≤ ((1 : ℤ) : ℝ) := Int.cast_le.2 hb
    rw [Int.cast_abs, Int.cast_sub, Int.cast_natCast, Int.cast_one] at this
    exact this
  have t1 := abs_sub_le (v : ℝ) ((prodZ c F e x0 x1 / 2 ^ (c.offset + c.fxp) : ℕ) : ℝ) Q
  have t2 := abs_sub_le ((prodZ c F e x0 x1 / 2 ^ (c.offset + c.fxp) : ℕ) : ℝ) ((prodZ c F e x0 x1 : ℝ) / 2 ^ (c.offset + c.fxp)) Q
  linarith

/-- C84 for FM128 with the documented range (`spu.h:410-411`):
`47 - offset - 2 fxp ≤ x · scale / 2^24 ≤ 125 - 2 fxp - offset`. -/
theorem c84_exp_fm128 (fxp offset : ℕ) (hf2 : 2 ≤ fxp) (hf64 : fxp < 64) (hn : offset + fxp < 128)
    (F : BitVec (64 + 64) → BitVec (64 + 64)) (δ : ℝ) (hδ : 0 ≤ δ) (hδ5 : δ ≤ 1 / 5) (hF : Rounded fxp (24 + fxp) (fxp - 23) δ F)
    (dp dr : Deal (64 + 64)) (hdp : DealOk 127 dp) (hdr : dr.c0 + dr.c1 = dr.a * dr.b) (x0 x1 : BitVec (64 + 64))
    (hone : OneNegative (scaled (fm128 fxp offset) 0 x0) (scaled (fm128 fxp offset) 1 x1))
    (hlo : (47 - offset - 2 * fxp : ℤ) * 2 ^ (24 + fxp) ≤ (x0 + x1).toInt * 24204406)
    (hhi : (x0 + x1).toInt * 24204406 ≤ (125 - 2 * fxp - offset : ℤ) * 2 ^ (24 + fxp)) :
    ∃ o0 o1, expA mulWide 127 (fm128 fxp offset) F dp dr x0 x1 = some (o0, o1) ∧ ∃ v : ℤ, o0 + o1 = BitVec.ofInt (64 + 64) v ∧
      |(v : ℝ) - 2 ^ fxp * (2 : ℝ) ^ (((x0 + x1).toInt * 24204406 : ℤ) / (2 : ℝ) ^ (24 + fxp))| ≤
        2 + (2 * δ + δ ^ 2) * (2 ^ fxp * (2 : ℝ) ^ (((x0 + x1).toInt * 24204406 : ℤ) / (2 : ℝ) ^ (24 + fxp))) := by
  have hS : (fm128 fxp offset).scale.toInt = 24204406 := by rfl
  have hb : (2 : ℤ) ^ (24 + fxp) ≤ 2 ^ 87 := pow_le_pow_right₀ (by norm_num) (by omega)
  have hb0 : (0 : ℤ) < 2 ^ (24 + fxp) := by positivity
  have h := c84_exp (q := 127) (mulWide_ok (h := 64)) mersenne127 (by norm_num) (by norm_num) (by norm_num) (fm128 fxp offset) F (fxp - 23) δ hδ hδ5
    hF hf64 (by show 24 + fxp < 64 + 64; omega) (by show 64 + 64 < 127 + fxp; omega) (by show fxp + 1 < 127; omega) dp dr hdp hdr
    (by show offset + fxp ≤ 127; omega) x0 x1 hone ((x0 + x1).toInt * 24204406 + offset * 2 ^ (24 + fxp)) (by rw [hS]; rfl)
    (by
      have h0 : -(2 : ℤ) ^ (64 + 64 - 1) ≤ (47 - 2 * fxp : ℤ) * 2 ^ (24 + fxp) := by
        have : (-100 : ℤ) ≤ 47 - 2 * fxp := by omega
        have : -100 * (2 : ℤ) ^ 87 ≤ (47 - 2 * fxp : ℤ) * 2 ^ (24 + fxp) := by nlinarith
        refine le_trans ?_ this
        norm_num
      linarith)
    (by
      have h0 : (125 - 2 * fxp : ℤ) * 2 ^ (24 + fxp) < (2 : ℤ) ^ (64 + 64 - 1) := by
        have : (125 - 2 * fxp : ℤ) ≤ 125 := by omega
        have : (125 - 2 * fxp : ℤ) * 2 ^ (24 + fxp) ≤ 125 * (2 : ℤ) ^ 87 := by nlinarith
        refine lt_of_le_of_lt this ?_
        norm_num
      linarith)
    (by
      show (1 - 2 * ((fxp - 23 : ℕ) : ℤ)) * 2 ^ (24 + fxp) ≤ _
      have : (1 - 2 * ((fxp - 23 : ℕ) : ℤ)) ≤ 47 - 2 * fxp := by omega
      have := mul_le_mul_of_nonneg_right this hb0.le
      linarith)
    (by
      show _ ≤ (((127 : ℕ) : ℤ) - 2 - 2 * (fxp : ℤ)) * 2 ^ (24 + fxp)
      push_cast
      linarith)
  rw [hS] at h
  exact h

/-! ### The base of the exponential -/

/-- the scale is the nearest integer to `2^24 · log₂ e` -/
theorem c84_scale : |(24204406 : ℝ) - 2 ^ 24 / Real.log 2| ≤ 1 / 2 := by
  have h1 := Real.log_two_gt_d9
  have h2 := Real.log_two_lt_d9
  have h0 : 0 < Real.log 2 := by linarith
  rw [abs_le]
  constructor
  · have : (2 : ℝ) ^ 24 / Real.log 2 ≤ 24204406 + 1 / 2 := by rw [div_le_iff₀ h0]; nlinarith
    linarith
  · have : (24204406 : ℝ) - 1 / 2 ≤ (2 : ℝ) ^ 24 / Real.log 2 := by rw [le_div_iff₀ h0]; nlinarith
    linarith

/-- C84: replacing `log₂ e` by `24204406 / 2^24` changes `exp r` by the factor `exp (r η)` with `|η| ≤ 2^-25`. -/
theorem c84_base (xs : ℤ) (fxp : ℕ) :
    ∃ η : ℝ, |η| ≤ 1 / 2 ^ 25 ∧ (2 : ℝ) ^ (((xs * 24204406 : ℤ) : ℝ) / (2 : ℝ) ^ (24 + fxp)) =
      Real.exp ((xs : ℝ) / 2 ^ fxp) * Real.exp ((xs : ℝ) / 2 ^ fxp * η) := by
  have h1 := Real.log_two_gt_d9
  have h2 := Real.log_two_lt_d9
  have h0 : 0 < Real.log 2 := by linarith
  refine ⟨24204406 * Real.log 2 / 2 ^ 24 - 1, ?_, ?_⟩
  · have hs := c84_scale
    have e : 24204406 * Real.log 2 / 2 ^ 24 - 1 = (24204406 - 2 ^ 24 / Real.log 2) * (Real.log 2 / 2 ^ 24) := by field_simp
    rw [e, abs_mul, abs_of_pos (by positivity : (0 : ℝ) < Real.log 2 / 2 ^ 24)]
    have hl : Real.log 2 / 2 ^ 24 ≤ 1 / 2 ^ 24 := by
      apply div_le_div_of_nonneg_right _ (by positivity); linarith
    calc _ ≤ (1 / 2) * (1 / 2 ^ 24) := mul_le_mul hs hl (by positivity) (by norm_num)
      _ = 1 / 2 ^ 25 := by norm_num
  · rw [← Real.exp_add, Real.rpow_def_of_pos (by norm_num)]
    congr 1
    push_cast
    rw [pow_add]
    field_simp
    ring

/-! ### Examples -/

/-- the hypotheses on the rounded powers can be met: rounding down to a multiple of `2^e` -/
theorem rounded_exists (fxp t e : ℕ) (he : e ≤ fxp) (hf : fxp + 1 < w) :
    ∃ F : BitVec w → BitVec w, Rounded fxp t e (1 / 2 ^ (fxp - e)) F := by
  have hpow : ∀ f : BitVec w, f.toNat < 2 ^ t → (2 : ℝ) ^ ((fxp : ℝ) + (f.toNat : ℝ) / 2 ^ t) ≤ 2 ^ (fxp + 1) ∧
      (2 : ℝ) ^ fxp ≤ (2 : ℝ) ^ ((fxp : ℝ) + (f.toNat : ℝ) / 2 ^ t) := by
    intro f hf
    have h1 : ((f.toNat : ℝ) / 2 ^ t) ≤ 1 := by rw [div_le_one (by positivity)]; exact_mod_cast hf.le
    have h2 : 0 ≤ ((f.toNat : ℝ) / 2 ^ t) := by positivity
    constructor
    · rw [← Real.rpow_natCast 2 (fxp + 1)]; apply Real.rpow_le_rpow_of_exponent_le (by norm_num); push_cast; linarith
    · rw [← Real.rpow_natCast 2 fxp]; apply Real.rpow_le_rpow_of_exponent_le (by norm_num); linarith
  have hval : ∀ f : BitVec w, f.toNat < 2 ^ t →
      (BitVec.ofNat w (2 ^ e * ⌊(2 : ℝ) ^ ((fxp : ℝ) + (f.toNat : ℝ) / 2 ^ t) / 2 ^ e⌋₊)).toNat =
        2 ^ e * ⌊(2 : ℝ) ^ ((fxp : ℝ) + (f.toNat : ℝ) / 2 ^ t) / 2 ^ e⌋₊ ∧
      2 ^ e * ⌊(2 : ℝ) ^ ((fxp : ℝ) + (f.toNat : ℝ) / 2 ^ t) / 2 ^ e⌋₊ ≤ 2 ^ (fxp + 1) := by
    intro f hf'
    have h1 := (hpow f hf').1
    have h2 : ((2 ^ e * ⌊(2 : ℝ) ^ ((fxp : ℝ) + (f.toNat : ℝ) / 2 ^ t) / 2 ^ e⌋₊ : ℕ) : ℝ) ≤ ((2 ^ (fxp + 1) : ℕ) : ℝ) := by
      push_cast
      have := Nat.floor_le (show 0 ≤ (2 : ℝ) ^ ((fxp : ℝ) + (f.toNat : ℝ) / 2 ^ t) / 2 ^ e by positivity)
      rw [le_div_iff₀ (by positivity)] at this
      linarith
    have h3 : 2 ^ e * ⌊(2 : ℝ) ^ ((fxp : ℝ) + (f.toNat : ℝ) / 2 ^ t) / 2 ^ e⌋₊ ≤ 2 ^ (fxp + 1) := by exact_mod_cast h2
    refine ⟨?_, h3⟩
    rw [BitVec.toNat_ofNat, Nat.mod_eq_of_lt]
    exact lt_of_le_of_lt h3 (Nat.pow_lt_pow_right (by omega) hf)
  refine ⟨fun f => BitVec.ofNat w (2 ^ e * ⌊(2 : ℝ) ^ ((fxp : ℝ) + (f.toNat : ℝ) / 2 ^ t) / 2 ^ e⌋₊), ?_, ?_, ?_⟩
  · intro f hf'
    rw [(hval f hf').1]
    exact Dvd.intro _ rfl
  · intro f hf'
    rw [(hval f hf').1]
    exact (hval f hf').2
  · intro f hf'
    rw [(hval f hf').1]
    push_cast
    have h1 := Nat.floor_le (show 0 ≤ (2 : ℝ) ^ ((fxp : ℝ) + (f.toNat : ℝ) / 2 ^ t) / 2 ^ e by positivity)
    have h2 := Nat.lt_floor_add_one ((2 : ℝ) ^ ((fxp : ℝ) + (f.toNat : ℝ) / 2 ^ t) / 2 ^ e)
    rw [le_div_iff₀ (by positivity)] at h1
    rw [div_lt_iff₀ (by positivity)] at h2
    have h3 := (hpow f hf').2
    have e3 : (2 : ℝ) ^ fxp = 2 ^ (fxp - e) * 2 ^ e := by rw [← pow_add]; congr 1; omega
    have h4 : (2 : ℝ) ^ e ≤ 1 / 2 ^ (fxp - e) * (2 : ℝ) ^ ((fxp : ℝ) + (f.toNat : ℝ) / 2 ^ t) := by
      rw [div_mul_eq_mul_div, one_mul, le_div_iff₀ (by positivity)]
      linarith
    rw [abs_le]
    constructor <;> linarith

/-- the fixed-point number -10 with 26 fractional bits, shared with one negative share: all hypotheses of the theorem for FM128 hold with
the default offset 13 -/
example : OneNegative (scaled (fm128 26 13) 0 (-5 * 2 ^ 100)) (scaled (fm128 26 13) 1 (5 * 2 ^ 100 - 10 * 2 ^ 26)) ∧
    ((-5 * 2 ^ 100 : BitVec (64 + 64)) + (5 * 2 ^ 100 - 10 * 2 ^ 26)).toInt = -10 * 2 ^ 26 ∧
    (47 - 13 - 2 * 26 : ℤ) * 2 ^ (24 + 26) ≤ -10 * 2 ^ 26 * 24204406 ∧ (-10 * 2 ^ 26 * 24204406 : ℤ) ≤ (125 - 2 * 26 - 13) * 2 ^ (24 + 26) := by
  unfold OneNegative; decide +kernel

/-- a run for `exp 1` with 12 fractional bits in FM64 and the linear approximation `1 + f` of `2^f`: 2.885 -/
example : (expA (mulNarrow (W := 64)) 61 ⟨12, 13, 11819#64, 5⟩ (fun f => (4096 : BitVec 64) + (f >>> 13))
      ⟨3, 4, 5, 7⟩ ⟨9, 2, 20, -2⟩ (2 ^ 40 : BitVec 64) (4096 - 2 ^ 40)).map (fun o => (o.1 + o.2).toNat) = some 11818 := by
  decide +kernel

end Spu.Props.ExpPrime

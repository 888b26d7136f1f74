import Verif.Model.IntPow
import Verif.Spec.IntPow
import Verif.Props.HalRing
import Mathlib.Tactic.Linarith
import Mathlib.Tactic.Ring
import Mathlib.Algebra.Ring.Parity
import Mathlib.Algebra.Order.Ring.Abs

set_option autoImplicit false

/-! # C71: power and division of integers -/

namespace Spu.Props
open Spu.Model Spu.Model.Bits Spu.Model.HalRing Spu.Model.IntPow Spu.Spec.IntPow

variable {w : ℕ}

theorem and_one_eq_bit (hw : 0 < w) (y : BitVec w) (i : ℕ) : (y >>> i) &&& 1 = bit (y.getLsbD i) := by
  apply BitVec.eq_of_getLsbD_eq
  intro j hj
  have hone : (1 : BitVec w) = bit true := by simp [bit]
  rw [BitVec.getLsbD_and, BitVec.getLsbD_ushiftRight, hone, getLsbD_bit hw, getLsbD_bit hw]
  by_cases h : j = 0
  · subst h; simp
  · simp [h]

theorem powLoop (hw : 0 < w) (n : ℕ) (x y : BitVec w) (k : ℕ) (hk : k ≤ n) :
    ((List.range k).foldl (powStep n y) (1, x)).1 = x ^ (y.toNat % 2 ^ k) ∧
      (k < n → ((List.range k).foldl (powStep n y) (1, x)).2 = x ^ 2 ^ k) := by
  induction k with
  | zero => simp [Nat.mod_one]
  | succ k ih =>
    obtain ⟨h1, h2⟩ := ih (by omega)
    have h2 := h2 (by omega)
    rw [List.range_succ, List.foldl_append, List.foldl_cons, List.foldl_nil]
    constructor
    · simp only [powStep]
      rw [and_one_eq_bit hw, c37_mux, h1, h2]
      rw [Nat.mod_pow_succ, pow_add, mul_comm]
      congr 1
      have : y.getLsbD k = decide (y.toNat / 2 ^ k % 2 = 1) := by
        rw [BitVec.getLsbD, Nat.testBit_eq_decide_div_mod_eq]
      rw [this]
      rcases Nat.mod_two_eq_zero_or_one (y.toNat / 2 ^ k) with h | h <;> simp [h]
    · intro hlt
      simp only [powStep]
      rw [if_pos (by omega), h2, ← pow_add, pow_succ, Nat.mul_two]

theorem hal_abs_one (hw : 2 ≤ w) (x : BitVec w) : HalRing.abs x = 1 ↔ x = 1 ∨ x = -1 := by
  have h1 : (1 : BitVec w).toInt = 1 := BitVec.toInt_one (by omega)
  have h2 : (-1 : BitVec w).toInt = -1 := by
    have : (-1 : BitVec w) = -1#w := rfl
    rw [this, BitVec.neg_one_eq_allOnes, BitVec.toInt_allOnes, if_pos (by omega)]
  rw [HalRing.abs, sign_eq (by omega)]
  split
  · rename_i h
    rw [neg_one_mul, neg_eq_iff_eq_neg]
    refine ⟨Or.inr, fun hx => hx.resolve_left fun hx => ?_⟩
    rw [hx, h1] at h; omega
  · rename_i h
    rw [one_mul]
    refine ⟨Or.inl, fun hx => hx.resolve_right fun hx => ?_⟩
    rw [hx, h2] at h; omega

/-- C71: what the power kernel computes, for all words. -/
theorem c71_ring (hw : 2 ≤ w) (x y : BitVec w) :
    power x y = if y.toInt < 0 ∧ x ≠ 1 ∧ x ≠ -1 then 0 else x ^ (y.toNat % 2 ^ yBits w) := by
  have hw0 : 0 < w := by omega
  have key : (y >>> (w - 1)) &&& ~~~(equal (HalRing.abs x) 1) = bit (decide (y.toInt < 0 ∧ x ≠ 1 ∧ x ≠ -1)) := by
    have := hal_msb hw0 y
    rw [HalRing.msb] at this
    rw [this, c37_equal hw0]
    have ha : decide (HalRing.abs x = 1) = decide (x = 1 ∨ x = -1) := by simp only [hal_abs_one hw x]
    rw [ha]
    apply BitVec.eq_of_getLsbD_eq
    intro i hi
    rw [BitVec.getLsbD_and, BitVec.getLsbD_not, getLsbD_bit hw0, getLsbD_bit hw0, getLsbD_bit hw0]
    by_cases h0 : i = 0
    · by_cases hy : y.toInt < 0 <;> by_cases hx1 : x = 1 <;> by_cases hx2 : x = -1 <;> simp [h0, hy, hx1, hx2, hw0]
    · simp [h0]
  simp only [power]
  rw [key, c37_mux, (powLoop hw0 _ x y _ le_rfl).1]
  by_cases h : y.toInt < 0 ∧ x ≠ 1 ∧ x ≠ -1 <;> simp [h]

theorem yBits_pow (t : ℕ) (ht : 2 ≤ t) : yBits (2 ^ t) = t := by
  have h4 : 4 ≤ 2 ^ t := by
    calc 4 = 2 ^ 2 := rfl
      _ ≤ 2 ^ t := Nat.pow_le_pow_right (by omega) ht
  rw [yBits, log2Ceil, if_neg (by omega)]
  have : Nat.log2 (2 ^ t - 1 - 1) = t - 1 := by
    rw [Nat.log2_eq_iff (by omega)]
    have : 2 ^ t = 2 * 2 ^ (t - 1) := by rw [← Nat.pow_succ']; congr 1; omega
    have h2 : 2 ≤ 2 ^ (t - 1) := by
      calc 2 = 2 ^ 1 := rfl
        _ ≤ 2 ^ (t - 1) := Nat.pow_le_pow_right (by omega) (by omega)
    constructor
    · omega
    · rw [show t - 1 + 1 = t by omega]; omega
  omega

theorem toInt_eq_of (hw : 0 < w) (v : BitVec w) (z : ℤ) (hv : v = BitVec.ofInt w z) (h1 : -(2 ^ (w - 1) : ℤ) ≤ z)
    (h2 : z < 2 ^ (w - 1)) : v.toInt = z := by
  have h3 : ((2 ^ w : ℕ) : ℤ) = 2 * 2 ^ (w - 1) := by exact_mod_cast two_pow_half hw
  rw [hv, BitVec.toInt_ofInt, Int.bmod_eq_of_le] <;> rw [h3] <;> omega

theorem ofInt_pow (z : ℤ) (n : ℕ) : (BitVec.ofInt w z) ^ n = BitVec.ofInt w (z ^ n) := by
  induction n with
  | zero => simp
  | succ n ih => rw [pow_succ, ih, pow_succ, BitVec.ofInt_mul]

theorem pow_ofInt (x : BitVec w) (n : ℕ) : x ^ n = BitVec.ofInt w (x.toInt ^ n) := by
  rw [← ofInt_pow, BitVec.ofInt_toInt]

/-- C71: the power is right whenever it fits in the ring, for every nonzero base. -/
theorem c71_power (t : ℕ) (ht : 2 ≤ t) (x y : BitVec (2 ^ t)) (hx : x.toInt ≠ 0 ∨ y.toInt < 2 ^ t)
    (h1 : -(2 ^ (2 ^ t - 1) : ℤ) ≤ intPower x.toInt y.toInt) (h2 : intPower x.toInt y.toInt < 2 ^ (2 ^ t - 1)) :
    (power x y).toInt = intPower x.toInt y.toInt := by
  have hw4 : 4 ≤ 2 ^ t := by
    calc 4 = 2 ^ 2 := rfl
      _ ≤ 2 ^ t := Nat.pow_le_pow_right (by omega) ht
  have hw0 : 0 < 2 ^ t := by omega
  have heven : Even (2 ^ t) := (Nat.even_pow.2 ⟨even_two, by omega⟩)
  have one_iff : x = 1 ↔ x.toInt = 1 := by
    rw [← BitVec.toInt_one (w := 2 ^ t) (by omega), BitVec.toInt_inj]; rfl
  have neg_iff : x = -1 ↔ x.toInt = -1 := by
    have h : (-1 : BitVec (2 ^ t)).toInt = -1 := by
      have : (-1 : BitVec (2 ^ t)) = -1#(2 ^ t) := rfl
      rw [this, BitVec.neg_one_eq_allOnes, BitVec.toInt_allOnes, if_pos (by omega)]
    rw [← h, BitVec.toInt_inj]
  -- powers of 1 and -1 depend on the parity only
  have par : ∀ a b : ℕ, (x.toInt = 1 ∨ x.toInt = -1) → (Even a ↔ Even b) → x.toInt ^ a = x.toInt ^ b := by
    intro a b h hab
    rcases h with h | h
    · rw [h, one_pow, one_pow]
    · rw [h]
      by_cases ha : Even a
      · rw [ha.neg_one_pow, (hab.1 ha).neg_one_pow]
      · rw [(Nat.not_even_iff_odd.1 ha).neg_one_pow, (Nat.not_even_iff_odd.1 fun hb => ha (hab.2 hb)).neg_one_pow]
  have modpar : ∀ a : ℕ, Even (a % 2 ^ t) ↔ Even a := by
    intro a
    conv_rhs => rw [← Nat.mod_add_div a (2 ^ t)]
    rw [Nat.even_add]
    have := heven.mul_right (a / 2 ^ t)
    tauto
  have hp := c71_ring (by omega) x y
  rw [yBits_pow t ht] at hp
  by_cases hy : y.toInt < 0
  · rw [intPower, if_neg (by omega)] at h1 h2 ⊢
    by_cases hx1 : x.toInt = 1 ∨ x.toInt = -1
    · rw [if_pos hx1] at h1 h2 ⊢
      rw [hp, if_neg (by rw [one_iff.symm, neg_iff.symm] at hx1; tauto)]
      refine toInt_eq_of hw0 _ _ ?_ h1 h2
      rw [pow_ofInt, par _ (-y.toInt).toNat hx1]
      rw [modpar]
      have hyn : y.toInt = (y.toNat : ℤ) - (2 ^ 2 ^ t : ℕ) := by
        rw [BitVec.toInt_eq_toNat_cond] at hy ⊢
        split at hy
        · omega
        · rename_i hc; rw [if_neg hc]
      have hb : Even (2 ^ 2 ^ t) := Nat.even_pow.2 ⟨even_two, by omega⟩
      have hs : (-y.toInt).toNat + y.toNat = 2 ^ 2 ^ t := by
        have := y.isLt; omega
      rw [← hs, Nat.even_add] at hb
      exact hb.symm
    · rw [if_neg hx1, hp, if_pos (by rw [one_iff.symm, neg_iff.symm] at hx1; tauto)]
      simp
  · have hyn : y.toInt = (y.toNat : ℤ) := by
      rw [BitVec.toInt_eq_toNat_cond] at hy ⊢
      split at hy
      · rename_i hc; rw [if_pos hc]
      · have := y.isLt; omega
    rw [intPower, if_pos (by omega), hyn, Int.toNat_natCast] at h1 h2 ⊢
    rw [hp, if_neg (by tauto)]
    refine toInt_eq_of hw0 _ _ ?_ h1 h2
    rw [pow_ofInt]
    by_cases hlt : y.toNat < 2 ^ t
    · rw [Nat.mod_eq_of_lt hlt]
    · congr 1
      refine par _ _ ?_ (modpar _)
      by_contra hx1
      have hx0 : x.toInt ≠ 0 := by
        rcases hx with h | h
        · exact h
        · exfalso; rw [hyn] at h; exact hlt (by exact_mod_cast h)
      have hx2 : 2 ≤ |x.toInt| := by
        rcases abs_cases x.toInt with h | h <;> omega
      have hbig : (2 : ℤ) ^ 2 ^ t ≤ |x.toInt ^ y.toNat| := by
        rw [abs_pow]
        calc (2 : ℤ) ^ 2 ^ t ≤ 2 ^ y.toNat := pow_le_pow_right₀ (by norm_num) (by omega)
          _ ≤ |x.toInt| ^ y.toNat := pow_le_pow_left₀ (by norm_num) hx2 _
      have h3 : (2 : ℤ) ^ 2 ^ t = 2 * 2 ^ (2 ^ t - 1) := by
        have := two_pow_half hw0; exact_mod_cast this
      have : |x.toInt ^ y.toNat| ≤ 2 ^ (2 ^ t - 1) := abs_le.2 ⟨h1, h2.le⟩
      have hp : (0 : ℤ) < 2 ^ (2 ^ t - 1) := by positivity
      omega

/-- C71 (finding): 0 to the power of a multiple of the ring width is 1. -/
theorem c71_zero (t : ℕ) (ht : 2 ≤ t) (y : BitVec (2 ^ t)) (hy : 0 < y.toInt) (h : y.toNat % 2 ^ t = 0) :
    power 0 y = 1 ∧ intPower (0 : BitVec (2 ^ t)).toInt y.toInt = 0 := by
  have hw4 : 4 ≤ 2 ^ t := by
    calc 4 = 2 ^ 2 := rfl
      _ ≤ 2 ^ t := Nat.pow_le_pow_right (by omega) ht
  rw [c71_ring (by omega), yBits_pow t ht, h, if_neg (by omega), pow_zero]
  refine ⟨rfl, ?_⟩
  rw [intPower, if_pos hy.le]
  have : (0 : BitVec (2 ^ t)).toInt = 0 := BitVec.toInt_zero
  rw [this, zero_pow (by omega)]

example : power (0 : BitVec 64) 64 = 1 := (c71_zero 6 (by norm_num) 64 (by decide) (by decide)).1

example : (power (-3 : BitVec 64) 5).toInt = -243 := by
  have := c71_power 6 (by norm_num) (-3 : BitVec 64) 5 (Or.inl (by decide)) (by decide) (by decide)
  simpa using this.trans (by decide)

example : (power (-1 : BitVec 64) (-7)).toInt = -1 := by
  have := c71_power 6 (by norm_num) (-1 : BitVec 64) (-7) (Or.inl (by decide)) (by decide) (by decide)
  simpa using this.trans (by decide)

/-! ### Division -/

theorem ofInt_sub' (a b : ℤ) : BitVec.ofInt w (a - b) = BitVec.ofInt w a - BitVec.ofInt w b := by
  rw [sub_eq_add_neg, BitVec.ofInt_add, BitVec.ofInt_neg, BitVec.sub_eq_add_neg]

theorem msb_ofInt (hw : 0 < w) (z : ℤ) (h1 : -(2 ^ (w - 1) : ℤ) ≤ z) (h2 : z < 2 ^ (w - 1)) :
    HalRing.msb (BitVec.ofInt w z) = bit (decide (z < 0)) := by
  rw [hal_msb hw, toInt_eq_of hw _ z rfl h1 h2]

theorem less_ofInt (hw : 0 < w) (a b : ℤ) (h1 : -(2 ^ (w - 1) : ℤ) ≤ a - b) (h2 : a - b < 2 ^ (w - 1)) :
    less (BitVec.ofInt w a) (BitVec.ofInt w b) = bit (decide (a < b)) := by
  rw [less, hal_sub, ← ofInt_sub', msb_ofInt hw _ h1 h2]
  congr 1
  rw [decide_eq_decide]; omega

theorem bit_ofInt (p : Bool) : (bit p : BitVec w) = BitVec.ofInt w (if p then 1 else 0) := by
  cases p <;> simp [bit]

/-- C71: if the fixed-point quotient is within one of the quotient, the corrected one is exact.  Only the divisor must be
small enough for the comparisons. -/
theorem c71_idiv (hw : 0 < w) (approx : BitVec w → BitVec w → BitVec w) (x y : BitVec w)
    (hx : x.toInt ≠ -(2 ^ (w - 1) : ℤ)) (hy0 : y.toInt ≠ 0) (hy : 2 * |y.toInt| ≤ 2 ^ (w - 1))
    (ha1 : |x.toInt| / |y.toInt| - 1 ≤ (approx (BitVec.ofInt w |x.toInt|) (BitVec.ofInt w |y.toInt|)).toInt)
    (ha2 : (approx (BitVec.ofInt w |x.toInt|) (BitVec.ofInt w |y.toInt|)).toInt ≤ |x.toInt| / |y.toInt| + 1) :
    idiv approx x y = BitVec.ofInt w (intDiv x.toInt y.toInt) := by
  have sgn : ∀ v : BitVec w, sign v = BitVec.ofInt w (if v.toInt < 0 then -1 else 1) := by
    intro v
    rw [sign_eq hw]
    split
    · rw [BitVec.ofInt_neg]; simp
    · simp
  have ab : ∀ v : BitVec w, v * sign v = BitVec.ofInt w |v.toInt| := by
    intro v
    rw [sgn]
    conv_lhs => lhs; rw [← BitVec.ofInt_toInt (x := v)]
    rw [← BitVec.ofInt_mul]
    congr 1
    split
    · rename_i h; rw [abs_of_neg h]; ring
    · rename_i h; rw [abs_of_nonneg (by omega)]; ring
  have hX := toInt_range hw x
  have hAx : |x.toInt| < 2 ^ (w - 1) := by
    rcases abs_cases x.toInt with h | h <;> omega
  have hAx0 := abs_nonneg x.toInt
  have hAy0 : 0 < |y.toInt| := abs_pos.2 hy0
  simp only [idiv]
  rw [ab, ab, sgn, sgn]
  generalize hq : approx (BitVec.ofInt w |x.toInt|) (BitVec.ofInt w |y.toInt|) = q at ha1 ha2 ⊢
  rw [← BitVec.ofInt_toInt (x := q)]
  generalize q.toInt = Q at ha1 ha2 ⊢
  have hd := Int.mul_ediv_add_emod |x.toInt| |y.toInt|
  have hm0 := Int.emod_nonneg |x.toInt| hAy0.ne'
  have hm1 := Int.emod_lt_of_pos |x.toInt| hAy0
  have hres : intDiv x.toInt y.toInt =
      |x.toInt| / |y.toInt| * ((if x.toInt < 0 then -1 else 1) * (if y.toInt < 0 then -1 else 1)) := by
    unfold intDiv
    rcases abs_cases x.toInt with ⟨h, h'⟩ | ⟨h, h'⟩ <;> rcases abs_cases y.toInt with ⟨g, g'⟩ | ⟨g, g'⟩
    · have : 0 < y.toInt := by omega
      rw [h, g]; simp [h', this, not_lt.2 h', not_lt.2 g']
    · have : ¬ 0 < y.toInt := by omega
      rw [h, g]; simp [h', this, not_lt.2 h', g']
    · have : 0 < y.toInt := by omega
      have h0 : ¬ 0 ≤ x.toInt := by omega
      rw [h, g]; simp [h0, h', this, not_lt.2 g']
    · have : ¬ 0 < y.toInt := by omega
      have h0 : ¬ 0 ≤ x.toInt := by omega
      rw [h, g]; simp [h0, h', this, g']
  rw [hres]
  generalize |x.toInt| / |y.toInt| = D at *
  generalize |x.toInt| % |y.toInt| = R at *
  generalize |x.toInt| = X at *
  generalize |y.toInt| = Y at *
  have e1 : (1 : BitVec w) = BitVec.ofInt w 1 := by simp
  rw [← BitVec.ofInt_mul, ← BitVec.ofInt_add]
  rcases (by omega : Q = D - 1 ∨ Q = D ∨ Q = D + 1) with rfl | rfl | rfl
  · rw [less_ofInt hw _ _ (by nlinarith) (by nlinarith), less_ofInt hw _ _ (by nlinarith) (by nlinarith),
      decide_eq_false (by nlinarith), decide_eq_false (by nlinarith), hal_sub, hal_sub, bit_ofInt, e1, ← ofInt_sub',
      ← BitVec.ofInt_add, ← ofInt_sub', ← BitVec.ofInt_mul, ← BitVec.ofInt_mul]
    simp
  · rw [less_ofInt hw _ _ (by nlinarith) (by nlinarith), less_ofInt hw _ _ (by nlinarith) (by nlinarith),
      decide_eq_true (by nlinarith), decide_eq_false (by nlinarith), hal_sub, hal_sub, bit_ofInt, bit_ofInt, e1,
      ← ofInt_sub', ← BitVec.ofInt_add, ← ofInt_sub', ← BitVec.ofInt_mul, ← BitVec.ofInt_mul]
    simp
  · rw [less_ofInt hw _ _ (by nlinarith) (by nlinarith), less_ofInt hw _ _ (by nlinarith) (by nlinarith),
      decide_eq_true (by nlinarith), decide_eq_true (by nlinarith), hal_sub, hal_sub, bit_ofInt, e1, ← ofInt_sub',
      ← BitVec.ofInt_add, ← ofInt_sub', ← BitVec.ofInt_mul, ← BitVec.ofInt_mul]
    simp

/-- a quotient that is one too large is corrected -/
example : idiv (fun a b => a.udiv b + 1) (-7 : BitVec 64) 2 = -3 := by
  rw [c71_idiv (by norm_num) _ _ _ (by decide) (by decide) (by decide) (by decide) (by decide)]; decide

/-- and one that is one too small -/
example : idiv (fun a b => a.udiv b - 1) (100 : BitVec 64) (-3) = -33 := by
  rw [c71_idiv (by norm_num) _ _ _ (by decide) (by decide) (by decide) (by decide) (by decide)]; decide

end Spu.Props

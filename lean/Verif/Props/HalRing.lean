import Verif.Model.HalRing
import Verif.Props.Bits
import Verif.Props.Reduce
import Mathlib.Algebra.BigOperators.Intervals
import Mathlib.Algebra.BigOperators.Ring.Finset
import Mathlib.Data.Nat.Bitwise
import Mathlib.Tactic.Ring

set_option autoImplicit false

/-! # C37: comparison, equality, selection and bit tricks on ring values -/

namespace Spu.Props
open Spu.Model Spu.Model.Bits Spu.Model.HalRing

variable {w : ℕ}

/-- a truth value as a ring element -/
def bit (b : Bool) : BitVec w := if b then 1 else 0

/-- the difference of the signed values fits in the word -/
def NoOverflow (x y : BitVec w) : Prop := -(2 ^ (w - 1) : ℤ) ≤ x.toInt - y.toInt ∧ x.toInt - y.toInt < 2 ^ (w - 1)

theorem getLsbD_bit (hw : 0 < w) (b : Bool) (i : ℕ) : (bit b : BitVec w).getLsbD i = (b && decide (i = 0)) := by
  cases b
  · simp [bit]
  · simp only [bit, if_true, Bool.true_and]
    have : (1 : BitVec w) = 1#w := rfl
    rw [this, BitVec.getLsbD_one]
    simp [hw]

theorem hal_msb (hw : 0 < w) (x : BitVec w) : HalRing.msb x = bit (decide (x.toInt < 0)) := by
  apply BitVec.eq_of_getLsbD_eq
  intro i hi
  rw [HalRing.msb, BitVec.getLsbD_ushiftRight, getLsbD_bit hw, ← BitVec.msb_eq_toInt, BitVec.msb_eq_getLsbD_last]
  by_cases h0 : i = 0
  · subst h0; simp
  · rw [BitVec.getLsbD_of_ge _ _ (by omega)]; simp [h0]

theorem hal_sub (x y : BitVec w) : HalRing.sub x y = x - y := by
  rw [HalRing.sub, BitVec.sub_eq_add_neg]

theorem two_pow_half (hw : 0 < w) : (2 ^ w : ℕ) = 2 * 2 ^ (w - 1) := by
  obtain ⟨k, rfl⟩ : ∃ k, w = k + 1 := ⟨w - 1, by omega⟩
  rw [Nat.pow_succ]; simp; ring

theorem toInt_range (hw : 0 < w) (x : BitVec w) : -(2 ^ (w - 1) : ℤ) ≤ x.toInt ∧ x.toInt < 2 ^ (w - 1) := by
  have h1 := BitVec.le_two_mul_toInt (x := x)
  have h2 := BitVec.two_mul_toInt_lt (x := x)
  have h3 : (2 ^ w : ℤ) = 2 * 2 ^ (w - 1) := by exact_mod_cast two_pow_half hw
  constructor <;> omega

theorem sub_neg_iff (hw : 0 < w) (x y : BitVec w) :
    (x - y).toInt < 0 ↔ (-(2 ^ (w - 1) : ℤ) ≤ x.toInt - y.toInt ∧ x.toInt - y.toInt < 0) ∨
      (2 ^ (w - 1) : ℤ) ≤ x.toInt - y.toInt := by
  rw [BitVec.toInt_sub]
  have hx := toInt_range hw x
  have hy := toInt_range hw y
  have h3 : ((2 ^ w : ℕ) : ℤ) = 2 * 2 ^ (w - 1) := by exact_mod_cast two_pow_half hw
  rw [Int.bmod_neg_iff (by rw [h3]; omega) (by rw [h3]; omega), h3]
  have e1 : (2 * 2 ^ (w - 1) : ℤ) / 2 = 2 ^ (w - 1) := by omega
  have e2 : (2 * 2 ^ (w - 1) + 1 : ℤ) / 2 = 2 ^ (w - 1) := by omega
  rw [e1, e2]

/-- C37: `_less` is right exactly when the difference does not overflow. -/
theorem c37_less (hw : 0 < w) (x y : BitVec w) :
    less x y = bit (decide (x.toInt < y.toInt)) ↔ NoOverflow x y := by
  rw [less, hal_msb hw, hal_sub]
  have hb : ∀ a b : Bool, (bit a : BitVec w) = bit b ↔ a = b := by
    intro a b
    refine ⟨fun h => ?_, fun h => by rw [h]⟩
    have := congrArg (fun v => v.getLsbD 0) h
    simpa [getLsbD_bit hw] using this
  rw [hb, decide_eq_decide, sub_neg_iff hw]
  unfold NoOverflow
  have hp : (0 : ℤ) < 2 ^ (w - 1) := by positivity
  omega

/-- C37: without an equality kernel, equality is right for all inputs. -/
theorem c37_equal (hw : 0 < w) (x y : BitVec w) : equal x y = bit (decide (x = y)) := by
  apply BitVec.eq_of_getLsbD_eq
  intro i hi
  have h1 : ∀ b : Bool, ((bit b : BitVec w) ^^^ 1).getLsbD i = (!b && decide (i = 0)) := by
    intro b
    have : (1 : BitVec w) = bit true := by simp [bit]
    rw [this, BitVec.getLsbD_xor, getLsbD_bit hw, getLsbD_bit hw]
    cases b <;> by_cases h : i = 0 <;> simp [h]
  rw [equal, less, less, hal_msb hw, hal_msb hw, BitVec.getLsbD_and, h1, h1, getLsbD_bit hw, hal_sub, hal_sub]
  have key : (decide (x = y)) = (!decide ((x - y).toInt < 0) && !decide ((y - x).toInt < 0)) := by
    rw [Bool.eq_iff_iff]
    simp only [decide_eq_true_eq, Bool.and_eq_true, Bool.not_eq_true', decide_eq_false_iff_not]
    rw [sub_neg_iff hw, sub_neg_iff hw, ← BitVec.toInt_inj]
    have hp : (0 : ℤ) < 2 ^ (w - 1) := by positivity
    omega
  rw [key]
  by_cases h : i = 0 <;> simp [h]

theorem c37_or (x y : BitVec w) : HalRing.or x y = x ||| y := by
  apply BitVec.eq_of_getLsbD_eq
  intro i hi
  rw [HalRing.or, BitVec.getLsbD_xor, BitVec.getLsbD_xor, BitVec.getLsbD_and, BitVec.getLsbD_or]
  cases x.getLsbD i <;> cases y.getLsbD i <;> rfl

/-- C37: selection. -/
theorem c37_mux (p : Bool) (a b : BitVec w) : mux (bit p) a b = if p then a else b := by
  rw [mux, hal_sub]
  cases p
  · simp [bit]
  · simp only [bit, if_true]
    ring

theorem less_ok (hw : 0 < w) {x y : BitVec w} (h : NoOverflow x y) : less x y = bit (decide (x.toInt < y.toInt)) :=
  (c37_less hw x y).2 h

/-- C37: clamping from below and above. -/
theorem c37_clampLower (hw : 0 < w) (x lo : BitVec w) (h : NoOverflow x lo) :
    (clampLower x lo).toInt = max x.toInt lo.toInt := by
  rw [clampLower, less_ok hw h, c37_mux]
  by_cases hlt : x.toInt < lo.toInt
  · simp only [hlt, decide_true, if_true]; omega
  · simp only [hlt, decide_false, Bool.false_eq_true, if_false]; omega

theorem c37_clampUpper (hw : 0 < w) (x hi : BitVec w) (h : NoOverflow x hi) :
    (clampUpper x hi).toInt = min x.toInt hi.toInt := by
  rw [clampUpper, less_ok hw h, c37_mux]
  by_cases hlt : x.toInt < hi.toInt
  · simp only [hlt, decide_true, if_true]; omega
  · simp only [hlt, decide_false, Bool.false_eq_true, if_false]; omega

theorem c37_clamp (hw : 0 < w) (x lo hi : BitVec w) (h1 : NoOverflow x lo)
    (h2 : -(2 ^ (w - 1) : ℤ) ≤ max x.toInt lo.toInt - hi.toInt ∧ max x.toInt lo.toInt - hi.toInt < 2 ^ (w - 1)) :
    (clamp x lo hi).toInt = min (max x.toInt lo.toInt) hi.toInt := by
  have hl := c37_clampLower hw x lo h1
  have : clamp x lo hi = clampUpper (clampLower x lo) hi := rfl
  rw [this, c37_clampUpper hw _ _ (by unfold NoOverflow; rw [hl]; exact h2), hl]

theorem sign_eq (hw : 0 < w) (x : BitVec w) : sign x = if x.toInt < 0 then -1 else 1 := by
  rw [sign, hal_msb hw, hal_sub]
  by_cases h : x.toInt < 0
  · simp only [h, decide_true, if_true, bit]; ring
  · simp only [h, decide_false, Bool.false_eq_true, if_false, bit]; ring

/-- C37: sign. -/
theorem c37_sign (hw : 2 ≤ w) (x : BitVec w) : (sign x).toInt = if x.toInt < 0 then -1 else 1 := by
  rw [sign_eq (by omega)]
  split
  · have : (-1 : BitVec w) = -1#w := rfl
    rw [this, BitVec.neg_one_eq_allOnes, BitVec.toInt_allOnes, if_pos (by omega)]
  · have : (1 : BitVec w) = 1#w := rfl
    rw [this, BitVec.toInt_one (by omega)]

/-- C37: absolute value, except of the least signed value. -/
theorem c37_abs (hw : 0 < w) (x : BitVec w) (hx : x.toInt ≠ -(2 ^ (w - 1) : ℤ)) : (HalRing.abs x).toInt = |x.toInt| := by
  rw [HalRing.abs, sign_eq hw]
  split
  · rename_i h
    rw [neg_one_mul, BitVec.toInt_neg_of_ne_intMin, abs_of_neg h]
    intro he
    rw [he, BitVec.toInt_intMin_of_pos hw] at hx
    exact hx rfl
  · rename_i h
    rw [one_mul, abs_of_nonneg (by omega)]

/-! ### Bit counts -/

/-- number of ones among the low `n` bits -/
def ones (x : BitVec w) (n : ℕ) : ℕ := ((Finset.range n).filter fun i => x.getLsbD i = true).card

theorem ones_eq_sum (x : BitVec w) (n : ℕ) : ones x n = ∑ i ∈ Finset.range n, (x.getLsbD i).toNat := by
  rw [ones, Finset.card_filter]
  refine Finset.sum_congr rfl fun i _ => ?_
  cases x.getLsbD i <;> simp

theorem ones_fold (x : BitVec w) (n : ℕ) : ones (x ^^^ (x >>> n)) n % 2 = ones x (n + n) % 2 := by
  rw [ones_eq_sum, ones_eq_sum, Finset.sum_range_add, ← Finset.sum_add_distrib]
  have : ∀ i, ((x ^^^ (x >>> n)).getLsbD i).toNat % 2 = ((x.getLsbD i).toNat + (x.getLsbD (n + i)).toNat) % 2 := by
    intro i
    rw [BitVec.getLsbD_xor, BitVec.getLsbD_ushiftRight]
    cases x.getLsbD i <;> cases x.getLsbD (n + i) <;> rfl
  rw [Finset.sum_nat_mod, Finset.sum_congr rfl fun i _ => this i, ← Finset.sum_nat_mod]

theorem parityLoop_bit0 (t : ℕ) (x : BitVec w) : ((parityLoop x (2 ^ t)).getLsbD 0).toNat = ones x (2 ^ t) % 2 := by
  induction t generalizing x with
  | zero =>
    rw [parityLoop, dif_neg (by simp), ones_eq_sum]
    simp only [Nat.pow_zero, Finset.sum_range_one]
    cases x.getLsbD 0 <;> rfl
  | succ t ih =>
    have h1 : 1 < 2 ^ (t + 1) := Nat.one_lt_two_pow (by omega)
    have h2 : 2 ^ (t + 1) / 2 = 2 ^ t := by rw [Nat.pow_succ]; omega
    rw [parityLoop, dif_pos h1, h2, ih, ones_fold, Nat.pow_succ, Nat.mul_two]

/-- C37: bit parity, for every power of two of bits. -/
theorem c37_parity (hw : 0 < w) (x : BitVec w) (t : ℕ) :
    bitParity x (2 ^ t) = some (bit (decide (ones x (2 ^ t) % 2 = 1))) := by
  rw [bitParity, if_pos (by rw [Nat.log2_two_pow])]
  congr 1
  apply BitVec.eq_of_getLsbD_eq
  intro i hi
  have hone : (1 : BitVec w) = bit true := by simp [bit]
  rw [BitVec.getLsbD_and, hone, getLsbD_bit hw, getLsbD_bit hw]
  by_cases h0 : i = 0
  · subst h0
    have := parityLoop_bit0 t x
    simp only [decide_true, Bool.and_true]
    rw [← this]
    cases (parityLoop x (2 ^ t)).getLsbD 0 <;> simp
  · simp [h0]

theorem c37_parity_other (x : BitVec w) (bits : ℕ) (h : ∀ t, bits ≠ 2 ^ t) : bitParity x bits = none := by
  rw [bitParity, if_neg fun e => h _ e.symm]

theorem foldl_add_bits (x : BitVec w) (hw : 0 < w) (n : ℕ) :
    ((List.range (n + 1)).map fun i => (x >>> i) &&& (1 : BitVec w)).tail.foldl (· + ·) ((x >>> 0) &&& (1 : BitVec w)) =
      BitVec.ofNat w (ones x (n + 1)) := by
  have hbit : ∀ i, (x >>> i) &&& (1 : BitVec w) = BitVec.ofNat w (x.getLsbD i).toNat := by
    intro i
    apply BitVec.eq_of_getLsbD_eq
    intro j hj
    have hone : (1 : BitVec w) = bit true := by simp [bit]
    have hr : BitVec.ofNat w (x.getLsbD i).toNat = bit (x.getLsbD i) := by
      cases x.getLsbD i <;> rfl
    rw [hr, BitVec.getLsbD_and, hone, getLsbD_bit hw, getLsbD_bit hw, BitVec.getLsbD_ushiftRight]
    by_cases h0 : j = 0 <;> simp [h0]
  induction n with
  | zero =>
    rw [hbit, ones_eq_sum]
    simp
  | succ n ih =>
    rw [List.range_succ, List.map_append, List.tail_append_of_ne_nil (by simp), List.foldl_append, ih]
    simp only [List.map_cons, List.map_nil, List.foldl_cons, List.foldl_nil]
    rw [hbit, ← BitVec.ofNat_add, ones_eq_sum, ones_eq_sum, ← Finset.sum_range_succ]

/-- C37: population count of the low `n` bits (`n ≥ 1`). -/
theorem c37_popcount (hw : 0 < w) (x : BitVec w) (n : ℕ) (hn : 0 < n) :
    popcount x n = some (BitVec.ofNat w (ones x n)) := by
  obtain ⟨n, rfl⟩ : ∃ k, n = k + 1 := ⟨n - 1, by omega⟩
  unfold popcount
  have := foldl_add_bits x hw n
  have hcons : (List.range (n + 1)).map (fun i => (x >>> i) &&& (1 : BitVec w)) =
      ((x >>> 0) &&& (1 : BitVec w)) :: ((List.range (n + 1)).map fun i => (x >>> i) &&& (1 : BitVec w)).tail := by
    rw [List.range_succ_eq_map]; simp
  rw [hcons, c10_vreduce (· + ·) BitVec.add_assoc BitVec.add_comm, this]

theorem c37_popcount_zero (x : BitVec w) : popcount x 0 = none := by
  unfold popcount; rw [vreduce]; simp

/-! ### Prefix or -/

theorem prefixOr_steps (x : BitVec w) (t i : ℕ) :
    ((List.range t).foldl (fun b i => HalRing.or b (b >>> (2 ^ i))) x).getLsbD i = true ↔
      ∃ j, i ≤ j ∧ j < i + 2 ^ t ∧ x.getLsbD j = true := by
  induction t generalizing i with
  | zero =>
    simp only [List.range_zero, List.foldl_nil, Nat.pow_zero]
    refine ⟨fun h => ⟨i, le_refl _, by omega, h⟩, ?_⟩
    rintro ⟨j, h1, h2, h3⟩
    obtain rfl : j = i := by omega
    exact h3
  | succ t ih =>
    rw [List.range_succ, List.foldl_append]
    simp only [List.foldl_cons, List.foldl_nil]
    rw [c37_or, BitVec.getLsbD_or, Bool.or_eq_true, BitVec.getLsbD_ushiftRight, ih, ih]
    rw [Nat.pow_succ]
    constructor
    · rintro (⟨j, h1, h2, h3⟩ | ⟨j, h1, h2, h3⟩)
      · exact ⟨j, h1, by omega, h3⟩
      · exact ⟨j, by omega, by omega, h3⟩
    · rintro ⟨j, h1, h2, h3⟩
      rcases Nat.lt_or_ge j (i + 2 ^ t) with h | h
      · exact Or.inl ⟨j, h1, h, h3⟩
      · exact Or.inr ⟨j, by omega, by omega, h3⟩

/-- C37: prefix or, for widths that are powers of two: bit `i` is set if some bit at or above `i` is. -/
theorem c37_prefixOr (t : ℕ) (x : BitVec (2 ^ t)) (i : ℕ) :
    (prefixOr x).getLsbD i = true ↔ ∃ j, i ≤ j ∧ x.getLsbD j = true := by
  unfold prefixOr
  rw [Nat.log2_two_pow, prefixOr_steps]
  constructor
  · rintro ⟨j, h1, _, h3⟩; exact ⟨j, h1, h3⟩
  · rintro ⟨j, h1, h3⟩
    refine ⟨j, h1, ?_, h3⟩
    have := BitVec.lt_of_getLsbD h3
    omega

/-- Other widths do not occur (32, 64 and 128 only); the loop is too short for them. -/
theorem c37_prefixOr_width3 : prefixOr (4 : BitVec 3) = 6 := by decide

/-- C37: `_eqz`. -/
theorem c37_eqz (t : ℕ) (x : BitVec (2 ^ t)) : eqz x = bit (decide (x = 0)) := by
  have hw : 0 < 2 ^ t := by positivity
  apply BitVec.eq_of_getLsbD_eq
  intro i hi
  have hone : (1 : BitVec (2 ^ t)) = bit true := by simp [bit]
  rw [eqz, hone, BitVec.getLsbD_xor, BitVec.getLsbD_and, getLsbD_bit hw, getLsbD_bit hw]
  by_cases h0 : i = 0
  · subst h0
    simp only [decide_true, Bool.and_true, Bool.xor_true]
    rw [← Bool.not_inj_iff, Bool.not_not, Bool.eq_iff_iff, c37_prefixOr, Bool.not_eq_true', decide_eq_false_iff_not]
    constructor
    · rintro ⟨j, _, hj⟩ rfl
      simp at hj
    · intro hx
      by_contra hn
      push Not at hn
      apply hx
      apply BitVec.eq_of_getLsbD_eq
      intro j _
      have := hn j (Nat.zero_le _)
      simpa using this
  · simp [h0]

/-- C37: the highest one bit. -/
theorem c37_highestOneBit (t : ℕ) (x : BitVec (2 ^ t)) (i : ℕ) :
    (highestOneBit x).getLsbD i = true ↔ x.getLsbD i = true ∧ ∀ j, i < j → x.getLsbD j = false := by
  rw [highestOneBit, BitVec.getLsbD_xor, BitVec.getLsbD_ushiftRight]
  have h1 := c37_prefixOr t x i
  have h2 := c37_prefixOr t x (1 + i)
  have himp : (prefixOr x).getLsbD (1 + i) = true → (prefixOr x).getLsbD i = true := by
    rw [h1, h2]; rintro ⟨j, hj, hx⟩; exact ⟨j, by omega, hx⟩
  have hx : ((prefixOr x).getLsbD i ^^ (prefixOr x).getLsbD (1 + i)) = true ↔
      (prefixOr x).getLsbD i = true ∧ ¬ (prefixOr x).getLsbD (1 + i) = true := by
    revert himp
    cases (prefixOr x).getLsbD i <;> cases (prefixOr x).getLsbD (1 + i) <;> simp
  rw [hx, h1, h2]
  constructor
  · rintro ⟨⟨j, hj, hxj⟩, hn⟩
    push Not at hn
    have hji : j = i := by
      by_contra hc
      exact hn j (by omega) hxj
    subst hji
    exact ⟨hxj, fun k hk => by simpa using hn k (by omega)⟩
  · rintro ⟨hi, hn⟩
    refine ⟨⟨i, le_refl _, hi⟩, ?_⟩
    rintro ⟨j, hj, hxj⟩
    rw [hn j (by omega)] at hxj
    simp at hxj

/-- C37: masking keeps the low bits. -/
theorem c37_mask (x : BitVec w) (n i : ℕ) : (maskNumberOfBits x n).getLsbD i = (x.getLsbD i && decide (i < n)) := by
  by_cases hi : i < w
  · rw [maskNumberOfBits, hal_sub, BitVec.getLsbD_and]
    have : ((1 : BitVec w) <<< n - 1).getLsbD i = decide (i < n) := by
      by_cases hn : n < w
      · have e : ((1 : BitVec w) <<< n - 1) = BitVec.ofNat w (2 ^ n - 1) := by
          apply BitVec.eq_of_toNat_eq
          have h1 : (1 : BitVec w) = 1#w := rfl
          have hp : 2 ^ n < 2 ^ w := Nat.pow_lt_pow_right (by omega) hn
          have hp1 : 1 ≤ 2 ^ n := Nat.one_le_two_pow
          have hw1 : 1 < 2 ^ w := by omega
          rw [h1, BitVec.toNat_sub, BitVec.toNat_shiftLeft, BitVec.toNat_ofNat, BitVec.toNat_ofNat, Nat.mod_eq_of_lt hw1,
            Nat.shiftLeft_eq, Nat.one_mul, Nat.mod_eq_of_lt hp, Nat.mod_eq_of_lt (a := 2 ^ n - 1) (by omega),
            show 2 ^ w - 1 + 2 ^ n = (2 ^ n - 1) + 2 ^ w by omega, Nat.add_mod_right, Nat.mod_eq_of_lt (by omega)]
        rw [e, BitVec.getLsbD_ofNat, Nat.testBit_two_pow_sub_one]
        simp [hi]
      · have e : ((1 : BitVec w) <<< n) = 0 := by
          apply BitVec.eq_of_getLsbD_eq
          intro j hj
          rw [BitVec.getLsbD_shiftLeft]
          simp [show j < n by omega]
        rw [e]
        have : (0 : BitVec w) - 1 = BitVec.allOnes w := by
          rw [zero_sub]; exact BitVec.neg_one_eq_allOnes
        rw [this, BitVec.getLsbD_allOnes]
        simp [hi, show i < n by omega]
    rw [this]
  · rw [BitVec.getLsbD_of_ge _ _ (by omega), BitVec.getLsbD_of_ge x _ (by omega)]; simp

/-- C37: `_bitdeintl` is the bit permutation of C14 with stride 0. -/
theorem c37_bitdeintl (x : BitVec w) : bitdeintl x = bitDeintl x 0 w := by
  unfold bitdeintl bitDeintl deintlLevels
  rw [List.filter_eq_self.2 (by simp)]
  refine congrArg (fun f => List.foldlM f x _) ?_
  funext out i
  unfold swapStep
  simp only [Nat.one_shiftLeft]

/-! ### Examples -/

section Examples
example : NoOverflow (3 : BitVec 32) (-5) := by unfold NoOverflow; decide
example : less (-7 : BitVec 32) 5 = 1 ∧ less (5 : BitVec 32) (-7) = 0 := by decide
/-- overflow: `2^31 - 1 < -1` is answered with yes -/
example : ¬ NoOverflow (0x7fffffff : BitVec 32) (-1) ∧ less (0x7fffffff : BitVec 32) (-1) = 1 := by
  unfold NoOverflow; decide
example : clamp (77 : BitVec 32) (-3) 10 = 10 ∧ clamp (-77 : BitVec 32) (-3) 10 = -3 := by decide
example : ones (0b1011010 : BitVec 32) 8 = 4 ∧ bitParity (0b1011010 : BitVec 32) 8 = some 0 := by
  refine ⟨by decide, ?_⟩
  rw [show (8 : ℕ) = 2 ^ 3 from rfl, c37_parity (by omega)]; decide
example : prefixOr (0b0001000010 : BitVec 32) = 0b0001111111 := by decide
example : highestOneBit (0b0001000010 : BitVec 32) = 0b0001000000 := by decide
end Examples

end Spu.Props

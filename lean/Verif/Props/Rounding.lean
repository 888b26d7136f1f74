import Verif.Model.Rounding
import Verif.Spec.Rounding
import Verif.Props.IntPow
import Mathlib.Tactic.FieldSimp
import Mathlib.Tactic.LinearCombination
import Mathlib.Tactic.Positivity

set_option autoImplicit false

/-! # C72: casts between integers and fixed point, and rounding -/

namespace Spu.Props
open Spu.Model Spu.Model.HalRing Spu.Model.Rounding Spu.Spec.Rounding

variable {w : ℕ}

theorem shl_ofInt (z : ℤ) (f : ℕ) : BitVec.ofInt w z <<< f = BitVec.ofInt w (z * 2 ^ f) := by
  rw [BitVec.shiftLeft_eq_mul_twoPow, BitVec.ofInt_mul]
  congr 1
  apply BitVec.eq_of_toNat_eq
  rw [BitVec.toNat_twoPow, BitVec.toNat_ofInt]
  have : ((2 : ℤ) ^ f) = ((2 ^ f : ℕ) : ℤ) := by push_cast; rfl
  rw [this]
  norm_cast

/-- flooring a word is flooring its number -/
theorem ediv_floor (z : ℤ) (f : ℕ) : z / 2 ^ f = ⌊(z : ℚ) / 2 ^ f⌋ := by
  have := Rat.floor_intCast_div_natCast z (2 ^ f)
  push_cast at this
  exact this.symm

theorem toInt_sar (x : BitVec w) (f : ℕ) : (x.sshiftRight f).toInt = ⌊val f x⌋ := by
  rw [BitVec.toInt_sshiftRight, Int.shiftRight_eq_div_pow, val, ← ediv_floor]
  norm_cast

theorem val_ofInt_mul (hw : 0 < w) (f : ℕ) (z : ℤ) (h1 : -(2 ^ (w - 1) : ℤ) ≤ z * 2 ^ f) (h2 : z * 2 ^ f < 2 ^ (w - 1)) :
    val f (BitVec.ofInt w (z * 2 ^ f)) = z := by
  rw [val, toInt_eq_of hw _ _ rfl h1 h2]
  push_cast
  field_simp

/-- C72: an integer becomes the same number if it fits. -/
theorem c72_int2fxp (hw : 0 < w) (f : ℕ) (x : BitVec w) (h1 : -(2 ^ (w - 1) : ℤ) ≤ x.toInt * 2 ^ f)
    (h2 : x.toInt * 2 ^ f < 2 ^ (w - 1)) : val f (int2fxp f x) = x.toInt := by
  rw [int2fxp, ← BitVec.ofInt_toInt (x := x), shl_ofInt, BitVec.ofInt_toInt]
  exact val_ofInt_mul hw f _ h1 h2

theorem ediv_ceil (z : ℤ) (f : ℕ) : (z + 2 ^ f - 1) / 2 ^ f = ⌈(z : ℚ) / 2 ^ f⌉ := by
  have hM : (0 : ℤ) < 2 ^ f := by positivity
  have hMq : (0 : ℚ) < 2 ^ f := by positivity
  have h1 := Int.mul_ediv_add_emod (z + 2 ^ f - 1) (2 ^ f)
  have h2 := Int.emod_nonneg (z + 2 ^ f - 1) hM.ne'
  have h3 := Int.emod_lt_of_pos (z + 2 ^ f - 1) hM
  generalize (z + 2 ^ f - 1) / 2 ^ f = c at *
  generalize (z + 2 ^ f - 1) % 2 ^ f = r at *
  symm
  rw [Int.ceil_eq_iff, lt_div_iff₀ hMq, div_le_iff₀ hMq]
  have e1 : c * 2 ^ f - 2 ^ f < z := by linarith
  have e2 : z ≤ c * 2 ^ f := by linarith
  constructor
  · have : ((c * 2 ^ f - 2 ^ f : ℤ) : ℚ) < z := by exact_mod_cast e1
    push_cast at this; linarith
  · exact_mod_cast e2

theorem ofNat_ofInt (n : ℕ) : BitVec.ofNat w n = BitVec.ofInt w n := by
  simp

theorem val_neg_iff (f : ℕ) (x : BitVec w) : 0 ≤ val f x ↔ 0 ≤ x.toInt := by
  rw [val, le_div_iff₀ (by positivity), zero_mul]; norm_cast

/-- C72: casting to integers rounds towards zero, for every word. -/
theorem c72_fxp2int (f : ℕ) (hf : f < 31) (hfw : f < w) (x : BitVec w) :
    ∃ r, fxp2int f x = some r ∧ TowardZero (val f x) r.toInt := by
  have hw : 0 < w := by omega
  refine ⟨_, if_pos hf, ?_⟩
  simp only [TowardZero, val_neg_iff]
  rw [toInt_sar, hal_msb hw]
  by_cases h : x.toInt < 0
  · rw [if_neg (by omega)]
    simp only [h, decide_true, bit, if_true]
    have hX := toInt_range hw x
    have hp : (2 : ℤ) ^ f ≤ 2 ^ (w - 1) := pow_le_pow_right₀ (by norm_num) (by omega)
    have h1 : (1 : ℕ) ≤ 2 ^ f := Nat.one_le_two_pow
    rw [show (1 : BitVec w) = 1#w from rfl, BitVec.mul_one, val, ofNat_ofInt]
    rw [toInt_eq_of hw _ (x.toInt + 2 ^ f - 1), ← ediv_floor, ediv_ceil, val]
    · conv_lhs => rw [← BitVec.ofInt_toInt (x := x)]
      rw [← BitVec.ofInt_add]
      congr 1
      push_cast [Nat.cast_sub h1]
      ring
    · have : (1 : ℤ) ≤ 2 ^ f := by exact_mod_cast h1
      omega
    · omega
  · rw [if_pos (by omega)]
    simp [h, bit]

/-- C72 (finding): with 31 or more fraction bits the cast is undefined. -/
theorem c72_fxp2int_undefined (f : ℕ) (hf : 31 ≤ f) (x : BitVec w) : fxp2int f x = none ∧ roundAfz f x = none := by
  have h : ∀ y : BitVec w, fxp2int f y = none := fun y => if_neg (by omega)
  refine ⟨h x, ?_⟩
  simp [roundAfz, h]

theorem floor_eq (f : ℕ) (x : BitVec w) : Rounding.floor f x = BitVec.ofInt w (⌊val f x⌋ * 2 ^ f) := by
  rw [Rounding.floor, ← BitVec.ofInt_toInt (x := x.sshiftRight f), shl_ofInt, toInt_sar]

theorem floor_bounds (f : ℕ) (x : BitVec w) : ⌊val f x⌋ * 2 ^ f ≤ x.toInt ∧ x.toInt < ⌊val f x⌋ * 2 ^ f + 2 ^ f := by
  have hM : (0 : ℤ) < 2 ^ f := by positivity
  rw [val, ← ediv_floor]
  have h1 := Int.mul_ediv_add_emod x.toInt (2 ^ f)
  have h2 := Int.emod_nonneg x.toInt hM.ne'
  have h3 := Int.emod_lt_of_pos x.toInt hM
  constructor <;> linarith

theorem floor_low {f : ℕ} (hfw : f < w) (x : BitVec w) : -(2 ^ (w - 1) : ℤ) ≤ ⌊val f x⌋ * 2 ^ f := by
  have hw : 0 < w := by omega
  have h := (floor_bounds f x).2
  have hX := (toInt_range hw x).1
  have hM : (0 : ℤ) < 2 ^ f := by positivity
  have e : (2 ^ (w - 1) : ℤ) = 2 ^ (w - 1 - f) * 2 ^ f := by rw [← pow_add]; congr 1; omega
  rw [e] at hX ⊢
  have : -(2 ^ (w - 1 - f) : ℤ) < ⌊val f x⌋ + 1 := by nlinarith
  have : -(2 ^ (w - 1 - f) : ℤ) ≤ ⌊val f x⌋ := by omega
  nlinarith

/-- C72: floor, for every word. -/
theorem c72_floor (f : ℕ) (hfw : f < w) (x : BitVec w) : val f (Rounding.floor f x) = ⌊val f x⌋ := by
  have hw : 0 < w := by omega
  rw [floor_eq]
  exact val_ofInt_mul hw f _ (floor_low hfw x) (lt_of_le_of_lt (floor_bounds f x).1 (toInt_range hw x).2)

/-- C72: ceiling, if one more fits. -/
theorem c72_ceil (f : ℕ) (hfw : f < w) (x : BitVec w) (h : x.toInt + 2 ^ f - 1 < 2 ^ (w - 1)) :
    val f (Rounding.ceil f x) = ⌈val f x⌉ := by
  have hw : 0 < w := by omega
  have hX := (toInt_range hw x).1
  have h1 : (1 : ℤ) ≤ 2 ^ f := by exact_mod_cast Nat.one_le_two_pow
  rw [Rounding.ceil, c72_floor f hfw]
  norm_cast
  rw [val, toInt_eq_of hw _ (x.toInt + 2 ^ f - 1) ?_ (by omega) h, ← ediv_floor, ediv_ceil, val]
  conv_lhs => lhs; rw [← BitVec.ofInt_toInt (x := x)]
  rw [hal_sub, ofNat_ofInt, show (1 : BitVec w) = BitVec.ofInt w 1 by simp, ← ofInt_sub', ← BitVec.ofInt_add]
  congr 1
  push_cast
  ring

theorem towardZero_bounds {q : ℚ} {z : ℤ} (h : TowardZero q z) : (0 ≤ q → z ≤ q ∧ q < z + 1) ∧ (q < 0 → q ≤ z ∧ z - 1 < q) := by
  unfold TowardZero at h
  constructor
  · intro hq
    rw [if_pos hq] at h
    rw [h]
    exact ⟨Int.floor_le q, Int.lt_floor_add_one q⟩
  · intro hq
    rw [if_neg (not_le.2 hq)] at h
    rw [h]
    exact ⟨Int.le_ceil q, by have := Int.ceil_lt_add_one q; linarith⟩

/-- C72: rounding half away from zero, if half more fits. -/
theorem c72_afz (f : ℕ) (hf0 : 0 < f) (hf : f < 31) (hfw : f < w) (x : BitVec w)
    (h : |x.toInt| + 2 ^ (f - 1) < 2 ^ (w - 1)) :
    ∃ r z, roundAfz f x = some r ∧ NearestAway (val f x) z ∧ val f r = z := by
  have hw : 0 < w := by omega
  obtain ⟨i, hi, hz⟩ := c72_fxp2int f hf hfw (x + sign x * BitVec.ofNat w (2 ^ (f - 1)))
  refine ⟨int2fxp f i, i.toInt, by simp [roundAfz, hi], ?_⟩
  have hM : (0 : ℤ) < 2 ^ f := by positivity
  have hMq : (0 : ℚ) < 2 ^ f := by positivity
  have hH : (0 : ℤ) < 2 ^ (f - 1) := by positivity
  have e2 : (2 : ℤ) ^ f = 2 * 2 ^ (f - 1) := by rw [← pow_succ']; congr 1; omega
  have e2q : (2 : ℚ) ^ f = 2 * 2 ^ (f - 1) := by rw [← pow_succ']; congr 1; omega
  have key : ∀ s : ℤ, sign x = BitVec.ofInt w s → |s| = 1 →
      val f (x + sign x * BitVec.ofNat w (2 ^ (f - 1))) = val f x + s / 2 := by
    intro s hs hs1
    rw [val, toInt_eq_of hw _ (x.toInt + s * 2 ^ (f - 1)), val]
    · push_cast
      rw [e2q]
      field_simp
    · conv_lhs => lhs; rw [← BitVec.ofInt_toInt (x := x)]
      rw [hs, ofNat_ofInt, ← BitVec.ofInt_mul, ← BitVec.ofInt_add]
      push_cast
      rfl
    · rcases abs_cases x.toInt with h' | h' <;> rcases abs_cases s with hs' | hs' <;> nlinarith
    · rcases abs_cases x.toInt with h' | h' <;> rcases abs_cases s with hs' | hs' <;> nlinarith
  have hsg := sign_eq hw x
  have hv : val f x * 2 ^ f = x.toInt := by rw [val]; field_simp
  by_cases hneg : x.toInt < 0
  · rw [if_pos hneg] at hsg
    rw [key (-1) (by rw [hsg, BitVec.ofInt_neg]; simp) (by norm_num)] at hz
    have hq : val f x < 0 := by rw [← not_le, val_neg_iff]; omega
    push_cast at hz
    obtain ⟨h1, h2⟩ := (towardZero_bounds hz).2 (by linarith)
    refine ⟨⟨abs_le.2 ⟨by linarith, by linarith⟩, fun ht => ?_⟩, ?_⟩
    · have : val f x - i.toInt = 1 / 2 := by
        rcases abs_cases (val f x - i.toInt) with h' | h'
        · linarith
        · linarith
      rw [abs_of_neg hq, abs_of_neg (by linarith)]; linarith
    · have b1 : ((x.toInt - 2 ^ (f - 1) : ℤ) : ℚ) ≤ i.toInt * 2 ^ f := by
        push_cast; rw [← hv]; nlinarith
      have b2 : (i.toInt * 2 ^ f : ℚ) < ((x.toInt + 2 ^ (f - 1) : ℤ) : ℚ) := by
        push_cast; rw [← hv]; nlinarith
      have b1 : x.toInt - 2 ^ (f - 1) ≤ i.toInt * 2 ^ f := by exact_mod_cast b1
      have b2 : i.toInt * 2 ^ f < x.toInt + 2 ^ (f - 1) := by exact_mod_cast b2
      rw [abs_of_neg hneg] at h
      exact c72_int2fxp hw f i (by omega) (by omega)
  · rw [if_neg hneg] at hsg
    rw [key 1 (by rw [hsg]; simp) (by norm_num)] at hz
    have hq : 0 ≤ val f x := by rw [val_neg_iff]; omega
    push_cast at hz
    obtain ⟨h1, h2⟩ := (towardZero_bounds hz).1 (by linarith)
    refine ⟨⟨abs_le.2 ⟨by linarith, by linarith⟩, fun ht => ?_⟩, ?_⟩
    · have : val f x - i.toInt = -1 / 2 := by
        rcases abs_cases (val f x - i.toInt) with h' | h'
        · linarith
        · linarith
      rw [abs_of_nonneg hq, abs_of_pos (by linarith)]; linarith
    · have b1 : (i.toInt * 2 ^ f : ℚ) ≤ ((x.toInt + 2 ^ (f - 1) : ℤ) : ℚ) := by
        push_cast; rw [← hv]; nlinarith
      have b2 : ((x.toInt - 2 ^ (f - 1) : ℤ) : ℚ) < i.toInt * 2 ^ f := by
        push_cast; rw [← hv]; nlinarith
      have b1 : i.toInt * 2 ^ f ≤ x.toInt + 2 ^ (f - 1) := by exact_mod_cast b1
      have b2 : x.toInt - 2 ^ (f - 1) < i.toInt * 2 ^ f := by exact_mod_cast b2
      rw [abs_of_nonneg (by omega)] at h
      exact c72_int2fxp hw f i (by omega) (by omega)

/-! ### Ties to even -/

theorem or_bit (a b : Bool) : HalRing.or (bit a : BitVec w) (bit b) = bit (a || b) := by
  rw [c37_or]
  cases a <;> cases b <;> simp [bit]

theorem and_bit (a b : Bool) : (bit a : BitVec w) &&& bit b = bit (a && b) := by
  cases a <;> cases b <;> simp [bit]

theorem foldl_or_bits (bs : List Bool) (b : Bool) :
    (bs.map (bit (w := w))).foldl HalRing.or (bit b) = bit (b || bs.any id) := by
  induction bs generalizing b with
  | nil => simp
  | cons c bs ih =>
    rw [List.map_cons, List.foldl_cons, or_bit, ih, List.any_cons, id, Bool.or_assoc]

theorem toInt_emod (x : BitVec w) (k : ℕ) (hk : k ≤ w) : x.toInt % 2 ^ k = ((x.toNat % 2 ^ k : ℕ) : ℤ) := by
  have hd : (2 ^ k : ℤ) ∣ (2 ^ w : ℕ) := by exact_mod_cast pow_dvd_pow 2 hk
  rw [BitVec.toInt_eq_toNat_cond]
  push_cast
  split
  · rfl
  · push_cast at hd
    rw [Int.sub_emod, Int.emod_eq_zero_of_dvd hd]; simp

theorem reduce_bits (x : BitVec w) (hw : 0 < w) (n : ℕ) (hn : 0 < n) :
    vreduce HalRing.or ((List.range n).map fun idx => (x >>> idx) &&& (1 : BitVec w)) =
      some (bit (decide (x.toNat % 2 ^ n ≠ 0))) := by
  obtain ⟨m, rfl⟩ : ∃ m, n = m + 1 := ⟨n - 1, by omega⟩
  have hmap : ((List.range (m + 1)).map fun idx => (x >>> idx) &&& (1 : BitVec w)) =
      bit (x.getLsbD 0) :: (((List.range m).map fun i => x.getLsbD (i + 1)).map (bit (w := w))) := by
    rw [List.range_succ_eq_map, List.map_cons, and_one_eq_bit hw, List.map_map, List.map_map]
    congr 1
    apply List.map_congr_left
    intro i _
    exact and_one_eq_bit hw x (i + 1)
  rw [hmap, c10_vreduce _ (fun a b c => by simp only [c37_or, BitVec.or_assoc]) (fun a b => by simp only [c37_or, BitVec.or_comm]),
    foldl_or_bits]
  congr 2
  rw [Bool.eq_iff_iff]
  simp only [Bool.or_eq_true, List.any_map, List.any_eq_true, List.mem_range, Function.comp, id, decide_eq_true_eq]
  have hz : x.toNat % 2 ^ (m + 1) = 0 ↔ ∀ i < m + 1, x.getLsbD i = false := by
    constructor
    · intro h i hi
      have := Nat.testBit_mod_two_pow x.toNat (m + 1) i
      rw [h] at this
      rw [BitVec.getLsbD]
      simpa [hi] using this.symm
    · intro h
      apply Nat.eq_of_testBit_eq
      intro i
      rw [Nat.testBit_mod_two_pow, Nat.zero_testBit]
      by_cases hi : i < m + 1
      · have := h i hi
        rw [BitVec.getLsbD] at this
        simp [this]
      · simp [hi]
  rw [Ne, hz]
  push Not
  constructor
  · rintro (h | ⟨i, hi, h⟩)
    · exact ⟨0, by omega, by simp [h]⟩
    · exact ⟨i + 1, by omega, by simp [h]⟩
  · rintro ⟨i, hi, h⟩
    rcases i with _ | i
    · left; simpa using h
    · right; exact ⟨i, by omega, by simpa using h⟩

theorem emod_two_ediv (z H : ℤ) (hH : 0 < H) : z % (H * 2) / H = z / H % 2 := by
  have h1 := Int.mul_ediv_add_emod z H
  have h2 := Int.emod_nonneg z hH.ne'
  have h3 := Int.emod_lt_of_pos z hH
  have h4 := Int.mul_ediv_add_emod (z / H) 2
  have h5 := Int.emod_two_eq (z / H)
  have e : z % (H * 2) = H * (z / H % 2) + z % H := by
    have : z = (H * (z / H % 2) + z % H) + (H * 2) * (z / H / 2) := by linear_combination -h1 - H * h4
    conv_lhs => rw [this]
    rw [Int.add_mul_emod_self_left, Int.emod_eq_of_lt]
    · rcases h5 with h | h <;> rw [h] <;> linarith
    · rcases h5 with h | h <;> rw [h] <;> linarith
  rw [e, Int.mul_add_ediv_left _ _ hH.ne', Int.ediv_eq_zero_of_lt h2 h3, add_zero]

/-- C72: rounding half to even, if one more fits. -/
theorem c72_rnte (f : ℕ) (hf : 2 ≤ f) (hfw : f < w) (x : BitVec w) (h : x.toInt + 2 ^ f < 2 ^ (w - 1)) :
    ∃ r z, roundRnte f x = some r ∧ NearestEven (val f x) z ∧ val f r = z := by
  have hw : 0 < w := by omega
  obtain ⟨g, rfl⟩ : ∃ g, f = g + 1 := ⟨f - 1, by omega⟩
  have hX := toInt_range hw x
  have hM : (0 : ℤ) < 2 ^ (g + 1) := by positivity
  have hMq : (0 : ℚ) < 2 ^ (g + 1) := by positivity
  have hH : (0 : ℤ) < 2 ^ g := by positivity
  have e2 : (2 : ℤ) ^ (g + 1) = 2 * 2 ^ g := pow_succ' 2 g
  -- quotient and fraction
  have hfl : ⌊val (g + 1) x⌋ = x.toInt / 2 ^ (g + 1) := by rw [val, ediv_floor]
  set fl := ⌊val (g + 1) x⌋ with hfld
  set fr := x.toInt % 2 ^ (g + 1) with hfr
  have hdm : 2 ^ (g + 1) * fl + fr = x.toInt := by rw [hfl, hfr]; exact Int.mul_ediv_add_emod _ _
  have hfr0 : 0 ≤ fr := Int.emod_nonneg _ hM.ne'
  have hfr1 : fr < 2 ^ (g + 1) := Int.emod_lt_of_pos _ hM
  -- the three bits
  have hbits : ∀ i, i < w → (x.getLsbD i = true ↔ x.toInt / 2 ^ i % 2 = 1) := by
    intro i hi
    have h1 := toInt_emod x (i + 1) (by omega)
    have h2 : x.toInt / 2 ^ i % 2 = (x.toInt % 2 ^ (i + 1)) / 2 ^ i := by
      rw [pow_succ, emod_two_ediv _ _ (by positivity)]
    rw [h2, h1, BitVec.getLsbD, Nat.testBit_eq_decide_div_mod_eq, decide_eq_true_eq]
    have h3 : x.toNat % 2 ^ (i + 1) / 2 ^ i = x.toNat / 2 ^ i % 2 := by
      rw [pow_succ, Nat.mod_mul_right_div_self]
    rw [← h3]
    norm_cast
  have ha : x.getLsbD (g + 1) = true ↔ ¬ Even fl := by
    rw [hbits (g + 1) hfw, ← hfl, Int.not_even_iff]
  have hb : x.getLsbD g = true ↔ 2 ^ g ≤ fr := by
    rw [hbits g (by omega)]
    have : x.toInt / 2 ^ g % 2 = fr / 2 ^ g := by rw [hfr, pow_succ, emod_two_ediv _ _ (by positivity)]
    rw [this]
    constructor
    · intro h1
      have := Int.mul_ediv_add_emod fr (2 ^ g)
      have := Int.emod_nonneg fr hH.ne'
      rw [h1] at *
      omega
    · intro h1
      rw [Int.ediv_eq_iff_of_pos hH]
      constructor <;> omega
  have hc : (x.toNat % 2 ^ g ≠ 0) ↔ fr % 2 ^ g ≠ 0 := by
    have h1 := toInt_emod x g (by omega)
    have h2 : fr % 2 ^ g = x.toInt % 2 ^ g := by
      rw [hfr, pow_succ, Int.emod_emod_of_dvd _ (Dvd.intro _ rfl)]
    rw [h2, h1]
    norm_cast
  have hcb : 2 ^ g ≤ fr → (fr % 2 ^ g ≠ 0 ↔ fr ≠ 2 ^ g) := by
    intro h1
    have : fr % 2 ^ g = fr - 2 ^ g := by
      rw [← Int.sub_emod_right, Int.emod_eq_of_lt (by omega) (by omega)]
    rw [this]; omega
  obtain ⟨comp, hcomp, hcomp2⟩ : ∃ p : Bool, roundRnte (g + 1) x = some (Rounding.floor (g + 1) x + int2fxp (g + 1) (bit p)) ∧
      (p = true ↔ 2 ^ g < fr ∨ (fr = 2 ^ g ∧ ¬ Even fl)) := by
    refine ⟨x.getLsbD g && (decide (x.toNat % 2 ^ g ≠ 0) || x.getLsbD (g + 1)), ?_, ?_⟩
    · simp only [roundRnte, Nat.add_sub_cancel]
      rw [reduce_bits x hw g (by omega)]
      simp only [Option.bind_eq_bind, Option.bind_some]
      rw [and_one_eq_bit hw, and_one_eq_bit hw, or_bit, and_bit]
      rfl
    · rw [Bool.and_eq_true, Bool.or_eq_true, decide_eq_true_eq, ha, hb, hc]
      constructor
      · rintro ⟨h1, h2 | h2⟩
        · rw [hcb h1] at h2; left; omega
        · rcases lt_or_eq_of_le h1 with h3 | h3
          · exact Or.inl h3
          · exact Or.inr ⟨h3.symm, h2⟩
      · rintro (h1 | ⟨h1, h2⟩)
        · exact ⟨h1.le, Or.inl ((hcb h1.le).2 (by omega))⟩
        · exact ⟨h1.ge, Or.inr h2⟩
  refine ⟨_, fl + (if comp then 1 else 0), hcomp, ?_, ?_⟩
  · have hq : val (g + 1) x = fl + fr / 2 ^ (g + 1) := by
      rw [val, ← hdm]; push_cast; field_simp
    have e2q : (2 : ℚ) ^ (g + 1) = 2 * 2 ^ g := pow_succ' 2 g
    have hHq : (0 : ℚ) < 2 ^ g := by positivity
    have d : ∀ a : ℤ, (a : ℚ) / 2 ^ (g + 1) * (2 * 2 ^ g) = a := by
      intro a; rw [e2q]; field_simp
    set t : ℚ := (fr : ℚ) / 2 ^ (g + 1) with ht
    have dt : t * (2 * 2 ^ g) = fr := d fr
    have cmp : ∀ a : ℤ, a < fr → (a : ℚ) < t * (2 * 2 ^ g) := by intro a h1; rw [dt]; exact_mod_cast h1
    have t0 : 0 ≤ t := by positivity
    have t1 : t < 1 := by
      have : (fr : ℚ) < 2 * 2 ^ g := by rw [← e2q]; exact_mod_cast hfr1
      rw [← dt] at this
      nlinarith
    have half_lt : 2 ^ g < fr ↔ 1 / 2 < t := by
      have : (2 ^ g < fr) ↔ ((2 ^ g : ℚ) < fr) := by norm_cast
      rw [this, ← dt]
      constructor <;> intro h1 <;> nlinarith
    have half_eq : fr = 2 ^ g ↔ t = 1 / 2 := by
      have : (fr = 2 ^ g) ↔ ((fr : ℚ) = 2 ^ g) := by norm_cast
      rw [this, ← dt]
      constructor <;> intro h1 <;> nlinarith
    rw [half_lt, half_eq] at hcomp2
    rw [NearestEven, hq]
    cases hcp : comp
    · rw [hcp] at hcomp2
      have h2 := (not_iff_not.2 hcomp2).1 (by simp)
      push Not at h2
      obtain ⟨h2, h3⟩ := h2
      simp only [Bool.false_eq_true, if_false, add_zero, Int.cast_add]
      rw [show ((fl : ℚ) + t - fl) = t by ring, abs_of_nonneg t0]
      exact ⟨h2, fun h => h3 h⟩
    · rw [hcp] at hcomp2
      have h2 := hcomp2.1 rfl
      simp only [if_true]
      push_cast
      rw [show ((fl : ℚ) + t - (fl + 1)) = t - 1 by ring, abs_of_neg (by linarith)]
      refine ⟨?_, fun h => ?_⟩
      · rcases h2 with h2 | ⟨h2, _⟩ <;> linarith
      · rcases h2 with h2 | ⟨_, h3⟩
        · linarith
        · exact Int.even_add_one.2 h3
  · rw [floor_eq, bit_ofInt, int2fxp, shl_ofInt, ← BitVec.ofInt_add, ← add_mul]
    have h1 := floor_low hfw x
    have h2 := (floor_bounds (g + 1) x).1
    rw [← hfld] at h1 h2 ⊢
    refine val_ofInt_mul hw _ _ ?_ ?_
    · cases comp <;> simp only [Bool.false_eq_true, if_false, if_true] <;> nlinarith
    · cases comp <;> simp only [Bool.false_eq_true, if_false, if_true] <;> nlinarith

/-! ### Examples: FM64 with 18 fraction bits -/

/-- -1.5 becomes -1 -/
example : fxp2int 18 (BitVec.ofInt 64 (-3 * 2 ^ 17)) = some (-1) := by decide

/-- -1.5 as a fixed-point number -/
example : ∃ r, fxp2int 18 (BitVec.ofInt 64 (-3 * 2 ^ 17)) = some r ∧ TowardZero (val 18 (BitVec.ofInt 64 (-3 * 2 ^ 17))) r.toInt :=
  c72_fxp2int 18 (by norm_num) (by norm_num) _

example : Rounding.floor 18 (BitVec.ofInt 64 (-3 * 2 ^ 17)) = BitVec.ofInt 64 (-2 * 2 ^ 18) := by decide

example : Rounding.ceil 18 (BitVec.ofInt 64 (-3 * 2 ^ 17)) = BitVec.ofInt 64 (-1 * 2 ^ 18) := by decide

example : roundAfz 18 (BitVec.ofInt 64 (-3 * 2 ^ 17)) = some (BitVec.ofInt 64 (-2 * 2 ^ 18)) := by decide

example : val 18 (Rounding.ceil 18 (BitVec.ofInt 64 (-3 * 2 ^ 17))) = ⌈val 18 (BitVec.ofInt 64 (-3 * 2 ^ 17))⌉ :=
  c72_ceil 18 (by norm_num) _ (by decide)

example : ∃ r z, roundAfz 18 (BitVec.ofInt 64 (5 * 2 ^ 17)) = some r ∧ NearestAway (val 18 (BitVec.ofInt 64 (5 * 2 ^ 17))) z ∧
    val 18 r = z := c72_afz 18 (by norm_num) (by norm_num) (by norm_num) _ (by decide)

example : ∃ r z, roundRnte 18 (BitVec.ofInt 64 (5 * 2 ^ 17)) = some r ∧ NearestEven (val 18 (BitVec.ofInt 64 (5 * 2 ^ 17))) z ∧
    val 18 r = z := c72_rnte 18 (by norm_num) (by norm_num) _ (by decide)

/-- the tie 2.5: 2 to even, 3 away from zero -/
example : NearestEven (5 / 2) 2 ∧ ¬ NearestEven (5 / 2) 3 ∧ NearestAway (5 / 2) 3 ∧ ¬ NearestAway (5 / 2) 2 := by
  refine ⟨⟨by norm_num, fun _ => ⟨1, rfl⟩⟩, fun h => ?_, ⟨by norm_num, by norm_num⟩, fun h => ?_⟩
  · have := h.2 (by norm_num)
    revert this; decide
  · have := h.2 (by norm_num)
    norm_num at this

end Spu.Props

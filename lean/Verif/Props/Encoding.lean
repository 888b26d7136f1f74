import Verif.Model.Encoding
import Verif.Lemmas.Iter
import Verif.Props.Value
import Verif.Props.NdArray
import Mathlib.Tactic.Ring
import Mathlib.Tactic.Linarith
import Mathlib.Tactic.Positivity
import Mathlib.Tactic.FieldSimp
import Mathlib.Data.Rat.Floor
import Mathlib.Algebra.Order.Floor.Ring
import Mathlib.Algebra.Order.Ring.Abs

set_option autoImplicit false

/-!
# C13: encoding of plaintexts in the ring
-/

namespace Spu.Props

open Spu.Model Spu.Model.Enc Spu.Spec

/-! ## Rounding -/

theorem two_zpow_pos (e : ℤ) : (0 : ℚ) < 2 ^ e := zpow_pos (by norm_num) e

theorem val_shift (c : ℤ) (j : ℕ) (e : ℤ) : val (c * 2 ^ j) e = val c (e + j) := by
  unfold val
  rw [zpow_add₀ (by norm_num), zpow_natCast]
  push_cast
  ring

theorem val_abs (m e : ℤ) : |val m e| = (m.natAbs : ℚ) * 2 ^ e := by
  unfold val
  rw [abs_mul, abs_of_pos (two_zpow_pos e), ← Int.cast_abs, Nat.cast_natAbs]

theorem rne_exact (d : ℤ) (s : ℕ) : rne (d * 2 ^ s) s = d := by
  have hp : 0 < 2 ^ s := Nat.two_pow_pos s
  have h1 : (d * 2 ^ s).natAbs = d.natAbs * 2 ^ s := by
    rw [Int.natAbs_mul, Int.natAbs_pow]; rfl
  have h2 : (d * 2 ^ s < 0) ↔ d < 0 := by
    constructor
    · intro h
      by_contra hd
      have : 0 ≤ d * 2 ^ s := mul_nonneg (by omega) (by positivity)
      omega
    · intro h; exact mul_neg_of_neg_of_pos h (by positivity)
  unfold rne
  simp only [h1, Nat.mul_mod_left, Nat.mul_div_cancel _ hp]
  have h3 : ¬ (2 ^ s < 2 * 0 ∨ 2 ^ s = 2 * 0 ∧ d.natAbs % 2 = 1) := by omega
  rw [if_neg h3]
  by_cases hd : d < 0
  · rw [if_pos (h2.2 hd)]; omega
  · rw [if_neg (fun h => hd (h2.1 h))]; omega

/-- a well-formed format -/
structure _root_.Spu.Model.Enc.Fmt.Ok (F : Fmt) : Prop where
  p : 1 ≤ F.p
  le : F.emin ≤ F.emax
  sub : (F.p : ℤ) ≤ -F.emin

/-- a finite number of the format -/
def Rep (F : Fmt) (m e : ℤ) : Prop := m.natAbs < 2 ^ F.p ∧ F.emin ≤ e ∧ e ≤ F.emax

theorem half_ok : half.Ok := ⟨by decide, by decide, by decide⟩
theorem single_ok : single.Ok := ⟨by decide, by decide, by decide⟩
theorem double_ok : double.Ok := ⟨by decide, by decide, by decide⟩

theorem rep_bound {F : Fmt} {m e : ℤ} (h : Rep F m e) : |val m e| < 2 ^ (F.emax + F.p) := by
  rw [val_abs, zpow_add₀ (by norm_num), zpow_natCast, mul_comm]
  have h1 : (m.natAbs : ℚ) < 2 ^ F.p := by exact_mod_cast h.1
  have h2 : (2 : ℚ) ^ e ≤ 2 ^ F.emax := zpow_le_zpow_right₀ (by norm_num) h.2.2
  have := two_zpow_pos e
  have := two_zpow_pos F.emax
  calc (2 : ℚ) ^ e * m.natAbs ≤ 2 ^ F.emax * m.natAbs := by
        apply mul_le_mul_of_nonneg_right h2; positivity
    _ < 2 ^ F.emax * 2 ^ F.p := by apply mul_lt_mul_of_pos_left h1; positivity

theorem norm_exact (F : Fmt) (hF : F.Ok) (d e : ℤ) (hd : d.natAbs < 2 ^ F.p) (he : F.emin ≤ e)
    (hv : |val d e| < 2 ^ (F.emax + F.p)) : ∃ m' e', norm F d e = .fin m' e' ∧ val m' e' = val d e ∧ Rep F m' e' := by
  unfold norm
  split_ifs with h0 h1 h2
  · have : d = 0 := by omega
    exact ⟨0, F.emin, rfl, by simp [val, this], by simp, le_refl _, hF.le⟩
  · exact ⟨d, e, rfl, rfl, hd, he, h1⟩
  · refine ⟨_, _, rfl, ?_, ?_, hF.le, le_refl _⟩
    · rw [val_shift]
      congr 1
      omega
    · rw [Int.natAbs_mul, Int.natAbs_pow]; exact h2
  · exfalso
    apply h2
    have he' : e = F.emax + ((e - F.emax).toNat : ℤ) := by omega
    rw [val_abs, he', zpow_add₀ (by norm_num), zpow_add₀ (by norm_num), zpow_natCast, zpow_natCast] at hv
    have hp := two_zpow_pos F.emax
    have : (d.natAbs : ℚ) * 2 ^ (e - F.emax).toNat < 2 ^ F.p := by
      have h3 : (2 : ℚ) ^ F.emax * (d.natAbs * 2 ^ (e - F.emax).toNat) < 2 ^ F.emax * 2 ^ F.p := by
        calc (2 : ℚ) ^ F.emax * (d.natAbs * 2 ^ (e - F.emax).toNat) = d.natAbs * (2 ^ F.emax * 2 ^ (e - F.emax).toNat) := by ring
          _ < _ := hv
      exact lt_of_mul_lt_mul_left h3 hp.le
    exact_mod_cast this

theorem natAbs_mul_pow (c : ℤ) (j : ℕ) : (c * 2 ^ j).natAbs = c.natAbs * 2 ^ j := by
  rw [Int.natAbs_mul, Int.natAbs_pow]; rfl

/-- the shift chosen by `rnd` -/
theorem round_shift (F : Fmt) (c : ℤ) (j : ℕ) (e : ℤ) (hc : c.natAbs < 2 ^ F.p) (he : F.emin ≤ e + j) :
    ∃ s, s ≤ j ∧ (c * 2 ^ (j - s)).natAbs < 2 ^ F.p ∧ F.emin ≤ e + s ∧
      rnd F (c * 2 ^ j) e = norm F (c * 2 ^ (j - s)) (e + s) := by
  obtain ⟨s, hs⟩ : ∃ s, s = max ((c * 2 ^ j).natAbs.size - F.p) (F.emin - e).toNat := ⟨_, rfl⟩
  have hlt : c.natAbs * 2 ^ j < 2 ^ (F.p + j) := by
    rw [pow_add]; exact Nat.mul_lt_mul_of_pos_right hc (Nat.two_pow_pos j)
  have hsz : (c.natAbs * 2 ^ j).size ≤ F.p + j := Nat.size_le.2 hlt
  have hsj : s ≤ j := by
    rw [hs, natAbs_mul_pow]
    omega
  have hsp : (c.natAbs * 2 ^ j).size ≤ F.p + s := by rw [hs, natAbs_mul_pow]; omega
  have hse : F.emin ≤ e + s := by rw [hs]; omega
  have hsplit : c * 2 ^ j = c * 2 ^ (j - s) * 2 ^ s := by
    rw [mul_assoc, ← pow_add, Nat.sub_add_cancel hsj]
  have hd : (c * 2 ^ (j - s)).natAbs < 2 ^ F.p := by
    have h1 := Nat.size_le.1 hsp
    rw [pow_add, ← natAbs_mul_pow, hsplit, natAbs_mul_pow] at h1
    exact lt_of_mul_lt_mul_right h1 (Nat.zero_le _)
  refine ⟨s, hsj, hd, hse, ?_⟩
  have hr : rne (c * 2 ^ j) s = c * 2 ^ (j - s) := by rw [hsplit, rne_exact]
  unfold rnd
  simp only [← hs, hr]
  rw [if_neg (by omega)]

/-- rounding does not change a number that fits -/
theorem round_exact (F : Fmt) (hF : F.Ok) (c : ℤ) (j : ℕ) (e : ℤ) (hc : c.natAbs < 2 ^ F.p) (he : F.emin ≤ e + j)
    (hv : |val c (e + j)| < 2 ^ (F.emax + F.p)) :
    ∃ m' e', rnd F (c * 2 ^ j) e = .fin m' e' ∧ val m' e' = val c (e + j) ∧ Rep F m' e' := by
  obtain ⟨s, h1, h2, h3, h4⟩ := round_shift F c j e hc he
  have hval : val (c * 2 ^ (j - s)) (e + s) = val c (e + j) := by
    rw [val_shift]; congr 1; omega
  rw [h4, ← hval]
  exact norm_exact F hF _ _ h2 h3 (by rw [hval]; exact hv)

theorem val_cancel (a b : ℤ) (x y : ℤ) (hab : val a x = val b y) (hxy : x ≤ y) : a = b * 2 ^ (y - x).toNat := by
  have hy : y = x + ((y - x).toNat : ℤ) := by omega
  rw [hy, ← val_shift] at hab
  unfold val at hab
  have := mul_right_cancel₀ (two_zpow_pos x).ne' hab
  exact_mod_cast this

theorem round_val (F : Fmt) (hF : F.Ok) (m e c t : ℤ) (h : val m e = val c t) (hc : c.natAbs < 2 ^ F.p) (ht : F.emin ≤ t)
    (hv : |val c t| < 2 ^ (F.emax + F.p)) : ∃ m' e', rnd F m e = .fin m' e' ∧ val m' e' = val c t ∧ Rep F m' e' := by
  rcases le_total e t with hle | hle
  · have hm := val_cancel m c e t h hle
    have ht' : e + ((t - e).toNat : ℤ) = t := by omega
    rw [hm]
    have := round_exact F hF c (t - e).toNat e hc (by rw [ht']; exact ht) (by rw [ht']; exact hv)
    rw [ht'] at this
    exact this
  · have hm := val_cancel c m t e h.symm hle
    have hmc : m.natAbs < 2 ^ F.p := by
      rw [hm, natAbs_mul_pow] at hc
      exact lt_of_le_of_lt (Nat.le_mul_of_pos_right _ (Nat.two_pow_pos _)) hc
    have := round_exact F hF m 0 e hmc (by simp; omega) (by simpa [h] using hv)
    rw [h.symm]
    simpa using this

theorem round_id (F : Fmt) (m e : ℤ) (h : Rep F m e) (h0 : m ≠ 0) : rnd F m e = .fin m e := by
  obtain ⟨s, h1, h2, h3, h4⟩ := round_shift F m 0 e h.1 (by simpa using h.2.1)
  have hs : s = 0 := by omega
  subst hs
  rw [show m * 2 ^ (0 - 0) = m by simp] at h4
  rw [h4]
  unfold norm
  rw [if_neg (by omega), if_pos (by simpa using h.2.2)]
  simp

/-- overflow of a power of two -/
theorem round_inf (F : Fmt) (hF : F.Ok) (neg : Bool) (j : ℕ) (e : ℤ) (h : F.emax + F.p ≤ e + j) :
    rnd F ((if neg then -1 else 1) * 2 ^ j) e = .inf neg := by
  have hc : (if neg then -1 else 1 : ℤ).natAbs = 1 := by cases neg <;> rfl
  have hp2 : 1 < 2 ^ F.p := Nat.one_lt_two_pow (by have := hF.p; omega)
  have hp := hF.p
  have hle := hF.le
  obtain ⟨s, h1, h2, h3, h4⟩ := round_shift F (if neg then -1 else 1) j e (by rw [hc]; exact hp2) (by omega)
  rw [h4]
  rw [natAbs_mul_pow, hc, one_mul] at h2
  have hjs : j - s < F.p := (Nat.pow_lt_pow_iff_right (by norm_num)).1 h2
  unfold norm
  rw [natAbs_mul_pow, hc, one_mul, if_neg (Nat.two_pow_pos _).ne', if_neg (by omega), ← pow_add, if_neg]
  · congr 1
    have : (0 : ℤ) < 2 ^ (j - s) := by positivity
    cases neg
    · simp
    · simp
  · rw [not_lt]
    exact Nat.pow_le_pow_right (by norm_num) (by omega)

theorem size_pred (a : ℕ) (ha : 1 ≤ a) : (2 ^ a - 1 : ℕ).size = a := by
  have hp := Nat.two_pow_pos a
  apply le_antisymm
  · exact Nat.size_le.2 (by omega)
  · have : a - 1 < (2 ^ a - 1 : ℕ).size := by
      rw [Nat.lt_size]
      have : 2 ^ a = 2 * 2 ^ (a - 1) := by rw [← pow_succ']; congr 1; omega
      have := Nat.two_pow_pos (a - 1)
      omega
    omega

/-- `2^a - 1` with more bits than the precision is rounded up to `2^a` -/
theorem round_up (F : Fmt) (hF : F.Ok) (a : ℕ) (e : ℤ) (ha : F.p < a) (he : F.emin ≤ e + (a - F.p : ℕ)) :
    (∃ m' e', rnd F (2 ^ a - 1) e = .fin m' e' ∧ val m' e' = 2 ^ (e + a)) ∨
      (rnd F (2 ^ a - 1) e = .inf false ∧ F.emax + F.p ≤ e + a) := by
  have hp := hF.p
  have h2a := Nat.two_pow_pos a
  have hnat : ((2 : ℤ) ^ a - 1).natAbs = 2 ^ a - 1 := by
    have : ((2 : ℤ) ^ a - 1) = ((2 ^ a - 1 : ℕ) : ℤ) := by push_cast [Nat.cast_sub h2a]; rfl
    rw [this, Int.natAbs_natCast]
  have hs : max (((2 : ℤ) ^ a - 1).natAbs.size - F.p) (F.emin - e).toNat = a - F.p := by
    rw [hnat, size_pred a (by omega)]
    omega
  have hsplit : 2 ^ a = 2 ^ F.p * 2 ^ (a - F.p) := by rw [← pow_add]; congr 1; omega
  have hS : 2 ≤ 2 ^ (a - F.p) := by
    calc 2 = 2 ^ 1 := rfl
      _ ≤ _ := Nat.pow_le_pow_right (by norm_num) (by omega)
  have hP : 2 ^ F.p = 2 * 2 ^ (F.p - 1) := by rw [← pow_succ']; congr 1; omega
  have hQ := Nat.two_pow_pos (F.p - 1)
  have hdm : 2 ^ a - 1 = (2 ^ F.p - 1) * 2 ^ (a - F.p) + (2 ^ (a - F.p) - 1) := by
    rw [Nat.sub_mul, one_mul, ← hsplit]
    have : 2 ^ (a - F.p) ≤ 2 ^ a := Nat.pow_le_pow_right (by norm_num) (by omega)
    omega
  have hq : (2 ^ a - 1) / 2 ^ (a - F.p) = 2 ^ F.p - 1 := by
    rw [hdm, Nat.add_comm, Nat.add_mul_div_right _ _ (by omega), Nat.div_eq_of_lt (by omega)]; omega
  have hr : (2 ^ a - 1) % 2 ^ (a - F.p) = 2 ^ (a - F.p) - 1 := by
    rw [hdm, Nat.add_comm, Nat.add_mul_mod_self_right, Nat.mod_eq_of_lt (by omega)]
  have hrne : rne (2 ^ a - 1) (a - F.p) = 2 ^ F.p := by
    have hneg : ¬ ((2 : ℤ) ^ a - 1 < 0) := by
      have : (1 : ℤ) ≤ 2 ^ a := one_le_pow₀ (by norm_num)
      omega
    unfold rne
    simp only [hnat, hq, hr]
    rw [if_neg hneg, if_pos]
    · rw [Nat.sub_add_cancel (Nat.one_le_two_pow)]; push_cast; rfl
    · rcases Nat.lt_or_ge (2 ^ (a - F.p)) (2 * (2 ^ (a - F.p) - 1)) with h | h
      · exact Or.inl h
      · exact Or.inr ⟨by omega, by omega⟩
  have hround : rnd F (2 ^ a - 1) e = norm F (2 ^ (F.p - 1)) (e + (a - F.p : ℕ) + 1) := by
    have e1 : ((2 : ℤ) ^ F.p).natAbs = 2 ^ F.p := by rw [Int.natAbs_pow]; rfl
    have e2 : (2 : ℤ) ^ F.p / 2 = 2 ^ (F.p - 1) := by
      rw [show (2 : ℤ) ^ F.p = 2 ^ (F.p - 1) * 2 by rw [← pow_succ]; congr 1; omega]
      exact Int.mul_ediv_cancel _ (by norm_num)
    unfold rnd
    simp only [hs, hrne, e1, if_true, e2]
  rw [hround]
  have e3 : ((2 : ℤ) ^ (F.p - 1)).natAbs = 2 ^ (F.p - 1) := by rw [Int.natAbs_pow]; rfl
  unfold norm
  rw [e3, if_neg (by omega)]
  split_ifs with h1 h2
  · left
    refine ⟨_, _, rfl, ?_⟩
    unfold val
    push_cast
    rw [← zpow_natCast, ← zpow_add₀ (by norm_num)]
    congr 1
    omega
  · exfalso
    have : 2 ^ F.p ≤ 2 ^ (F.p - 1) * 2 ^ (e + ((a - F.p : ℕ) : ℤ) + 1 - F.emax).toNat := by
      rw [← pow_add]; exact Nat.pow_le_pow_right (by norm_num) (by omega)
    omega
  · right
    have : ¬ ((2 : ℤ) ^ (F.p - 1) < 0) := by
      have : (0 : ℤ) < 2 ^ (F.p - 1) := by positivity
      omega
    exact ⟨by simp [this], by omega⟩

/-! ## Truncation -/

/-- the integer part, towards zero -/
def truncQ (q : ℚ) : ℤ := if 0 ≤ q then ⌊q⌋ else ⌈q⌉

theorem truncQ_int (n : ℤ) : truncQ n = n := by unfold truncQ; split_ifs <;> simp

theorem truncQ_mono {x y : ℚ} (h : x ≤ y) : truncQ x ≤ truncQ y := by
  unfold truncQ
  split_ifs with h1 h2 h2
  · exact Int.floor_le_floor h
  · linarith
  · have a : ⌈x⌉ ≤ 0 := Int.ceil_le.2 (by push_cast; linarith)
    have b : 0 ≤ ⌊y⌋ := Int.floor_nonneg.2 h2
    omega
  · exact Int.ceil_le_ceil h

/-- the error of truncation is less than one and towards zero -/
theorem truncQ_err (q : ℚ) : |q - truncQ q| < 1 ∧ |(truncQ q : ℚ)| ≤ |q| ∧ 0 ≤ (truncQ q : ℚ) * q := by
  unfold truncQ
  split_ifs with h
  · have h1 := Int.floor_le q
    have h2 := Int.lt_floor_add_one q
    have h3 : (0 : ℚ) ≤ ⌊q⌋ := by exact_mod_cast Int.floor_nonneg.2 h
    refine ⟨?_, ?_, by positivity⟩
    · rw [abs_lt]; constructor <;> linarith
    · rw [abs_of_nonneg h3, abs_of_nonneg h]; exact h1
  · have h1 := Int.le_ceil q
    have h2 := Int.ceil_lt_add_one q
    have h3 : (⌈q⌉ : ℚ) ≤ 0 := by
      have : ⌈q⌉ ≤ 0 := Int.ceil_le.2 (by push_cast; linarith)
      exact_mod_cast this
    refine ⟨?_, ?_, ?_⟩
    · rw [abs_lt]; constructor <;> linarith
    · rw [abs_of_nonpos h3, abs_of_nonpos (by linarith)]; linarith
    · exact mul_nonneg_of_nonpos_of_nonpos h3 (by linarith)

theorem truncQ_val (m e : ℤ) : truncQ (val m e) = if 0 ≤ e then m * 2 ^ e.toNat else m.tdiv (2 ^ (-e).toNat) := by
  split_ifs with h
  · have : val m e = ((m * 2 ^ e.toNat : ℤ) : ℚ) := by
      obtain ⟨n, rfl⟩ := Int.eq_ofNat_of_zero_le h
      unfold val
      rw [Int.toNat_natCast, zpow_natCast]; push_cast; rfl
    rw [this, truncQ_int]
  · obtain ⟨d, hd⟩ : ∃ d : ℕ, e = -(d : ℤ) := ⟨(-e).toNat, by omega⟩
    subst hd
    have hd2 : (-(-(d : ℤ))).toNat = d := by omega
    rw [hd2]
    have hv : val m (-(d : ℤ)) = (m : ℚ) / ((2 ^ d : ℕ) : ℚ) := by
      unfold val
      rw [zpow_neg, zpow_natCast, div_eq_mul_inv]; push_cast; rfl
    have hpos : (0 : ℚ) < ((2 ^ d : ℕ) : ℚ) := by exact_mod_cast Nat.two_pow_pos d
    have hc : ((2 ^ d : ℕ) : ℤ) = 2 ^ d := by push_cast; rfl
    unfold truncQ
    rw [hv]
    rcases lt_or_ge m 0 with hm | hm
    · have hneg : ¬ (0 ≤ (m : ℚ) / ((2 ^ d : ℕ) : ℚ)) := by
        rw [not_le]; exact div_neg_of_neg_of_pos (by exact_mod_cast hm) hpos
      rw [if_neg hneg]
      have : (m : ℚ) / ((2 ^ d : ℕ) : ℚ) = -(((-m : ℤ) : ℚ) / ((2 ^ d : ℕ) : ℚ)) := by push_cast; ring
      rw [this, Int.ceil_neg, Rat.floor_intCast_div_natCast, hc]
      have : m = -(-m) := by omega
      conv_rhs => rw [this, Int.neg_tdiv, Int.tdiv_eq_ediv_of_nonneg (by omega)]
    · have : 0 ≤ (m : ℚ) / ((2 ^ d : ℕ) : ℚ) := div_nonneg (by exact_mod_cast hm) hpos.le
      rw [if_pos this, Rat.floor_intCast_div_natCast, hc, Int.tdiv_eq_ediv_of_nonneg hm]

theorem toInt_val (k : ℕ) (m e : ℤ) (h : -2 ^ (k - 1) ≤ truncQ (val m e) ∧ truncQ (val m e) < 2 ^ (k - 1)) :
    toInt k (.fin m e) = some (truncQ (val m e)) := by
  rw [truncQ_val] at h ⊢
  unfold toInt
  simp only
  rw [if_pos h]

/-! ## The saturation bounds -/

/-- the three floating-point types -/
inductive IsFloat : Fmt → Prop
  | half : IsFloat half
  | single : IsFloat single
  | double : IsFloat double

theorem IsFloat.ok {F : Fmt} (h : IsFloat F) : F.Ok := by
  cases h
  · exact half_ok
  · exact single_ok
  · exact double_ok

theorem IsFloat.le {F : Fmt} (h : IsFloat F) : F.p ≤ 53 ∧ -1074 ≤ F.emin ∧ F.emax + F.p ≤ 1024 := by
  cases h <;> decide

/-- plus or minus one -/
def sgn (neg : Bool) : ℤ := if neg then -1 else 1

theorem sgn_natAbs (neg : Bool) : (sgn neg).natAbs = 1 := by cases neg <;> rfl

theorem val_sgn_abs (neg : Bool) (t : ℤ) : |val (sgn neg) t| = 2 ^ t := by
  rw [val_abs, sgn_natAbs]; simp

/-- a number with the value `±2^t` in another format -/
theorem conv_pow (F : Fmt) (hF : F.Ok) (neg : Bool) (m e t : ℤ) (h : val m e = val (sgn neg) t) (h0 : F.emin ≤ t) :
    (∃ m' e', conv F (.fin m e) = .fin m' e' ∧ val m' e' = val (sgn neg) t) ∨
    (conv F (.fin m e) = .inf neg ∧ F.emax + F.p ≤ t) := by
  rcases lt_or_ge t (F.emax + F.p) with hlt | hge
  · left
    have hc : (sgn neg).natAbs < 2 ^ F.p := by
      rw [sgn_natAbs]
      exact Nat.one_lt_two_pow (by have := hF.p; omega)
    obtain ⟨m', e', h1, h2, _⟩ := round_val F hF m e (sgn neg) t h hc h0 (by
      rw [val_sgn_abs]; exact zpow_lt_zpow_right₀ (by norm_num) hlt)
    exact ⟨m', e', h1, h2⟩
  · right
    refine ⟨?_, hge⟩
    have het : e ≤ t := by
      by_contra hc
      have hm := val_cancel (sgn neg) m t e h.symm (by omega)
      have := congrArg Int.natAbs hm
      rw [sgn_natAbs, natAbs_mul_pow] at this
      have h2 : 2 ^ (e - t).toNat = 1 := Nat.eq_one_of_mul_eq_one_left this.symm
      have h3 : (e - t).toNat = 0 := by
        rcases Nat.eq_zero_or_pos (e - t).toNat with h | h
        · exact h
        · have := Nat.one_lt_two_pow (n := (e - t).toNat) (by omega)
          omega
      omega
    have hm := val_cancel m (sgn neg) e t h het
    show rnd F m e = .inf neg
    rw [hm]
    exact round_inf F hF neg (t - e).toNat e (by omega)

/-- scaling a power of two down in `double` -/
theorem scale_double (neg : Bool) (a f : ℕ) (ha : a ≤ 126) (hf : f ≤ a) (m e : ℤ) (h : val m e = val (sgn neg) a) :
    ∃ m' e', divScale double f (.fin m e) = .fin m' e' ∧ val m' e' = val (sgn neg) (a - f) := by
  have hv : val m (e - f) = val (sgn neg) (a - f) := by
    unfold val at h ⊢
    rw [sub_eq_add_neg, zpow_add₀ (by norm_num), ← mul_assoc, h, mul_assoc, ← zpow_add₀ (by norm_num), ← sub_eq_add_neg]
  obtain ⟨m', e', h1, h2, _⟩ := round_val double double_ok m (e - f) (sgn neg) (a - f) hv
    (by rw [sgn_natAbs]; decide) (by show (-1074 : ℤ) ≤ _; omega)
    (by rw [val_sgn_abs]; exact zpow_lt_zpow_right₀ (by norm_num) (by show (a : ℤ) - f < 971 + 53; omega))
  exact ⟨m', e', h1, h2⟩

/-- the lower saturation bound -/
theorem lower_bound (F : Fmt) (hF : IsFloat F) (a f : ℕ) (ha : a ≤ 126) (hf : f ≤ a) :
    (∃ m e, conv F (divScale double f (ofInt double (-2 ^ a))) = .fin m e ∧ val m e = -2 ^ ((a : ℤ) - f)) ∨
    (conv F (divScale double f (ofInt double (-2 ^ a))) = .inf true ∧ F.emax + F.p ≤ (a : ℤ) - f) := by
  have h0 : val (-2 ^ a) 0 = val (sgn true) a := by
    unfold val sgn; push_cast; simp
  obtain ⟨m1, e1, h1, h2, _⟩ := round_val double double_ok (-2 ^ a) 0 (sgn true) a h0
    (by rw [sgn_natAbs]; decide) (by show (-1074 : ℤ) ≤ _; omega)
    (by rw [val_sgn_abs]; exact zpow_lt_zpow_right₀ (by norm_num) (by show (a : ℤ) < 971 + 53; omega))
  obtain ⟨m2, e2, h3, h4⟩ := scale_double true a f ha hf m1 e1 h2
  have h5 : divScale double f (ofInt double (-2 ^ a)) = .fin m2 e2 := by unfold ofInt; rw [h1, h3]
  rw [h5]
  have hE : F.emin ≤ (a : ℤ) - f := by
    have := hF.ok.sub
    have := hF.ok.p
    omega
  rcases conv_pow F hF.ok true m2 e2 _ h4 hE with ⟨m', e', h6, h7⟩ | h6
  · left
    refine ⟨m', e', h6, ?_⟩
    rw [h7]; unfold val sgn; push_cast; simp
  · exact Or.inr h6

/-- the upper saturation bound -/
theorem upper_bound (F : Fmt) (hF : IsFloat F) (a f : ℕ) (ha : a = 30 ∨ a = 62 ∨ a = 126) (hf : f ≤ a) :
    (∃ m e, conv F (divScale double f (ofInt double (2 ^ a - 1))) = .fin m e ∧
      (val m e = 2 ^ ((a : ℤ) - f) ∨ val m e = ((2 : ℚ) ^ a - 1) * 2 ^ (-(f : ℤ)))) ∨
    (conv F (divScale double f (ofInt double (2 ^ a - 1))) = .inf false ∧ F.emax + F.p ≤ (a : ℤ) - f) := by
  rcases Nat.lt_or_ge 53 a with hbig | hsmall
  · rcases round_up double double_ok a 0 hbig (by show (-1074 : ℤ) ≤ _; omega) with ⟨m1, e1, h1, h2⟩ | ⟨_, h2⟩
    · have h0 : val m1 e1 = val (sgn false) a := by
        rw [h2]; unfold val sgn; simp
      obtain ⟨m2, e2, h3, h4⟩ := scale_double false a f (by omega) hf m1 e1 h0
      have h5 : divScale double f (ofInt double (2 ^ a - 1)) = .fin m2 e2 := by unfold ofInt; rw [h1, h3]
      rw [h5]
      have hE : F.emin ≤ (a : ℤ) - f := by
        have := hF.ok.sub
        have := hF.ok.p
        omega
      rcases conv_pow F hF.ok false m2 e2 _ h4 hE with ⟨m', e', h6, h7⟩ | h6
      · left
        refine ⟨m', e', h6, Or.inl ?_⟩
        rw [h7]; unfold val sgn; push_cast; simp
      · exact Or.inr h6
    · exfalso
      have : (971 : ℤ) + 53 ≤ 0 + a := h2
      omega
  · have ha30 : a = 30 := by omega
    subst ha30
    have h1 : ofInt double (2 ^ 30 - 1) = .fin (2 ^ 30 - 1) 0 :=
      round_id double _ _ ⟨by decide, by decide, by decide⟩ (by decide)
    have h2 : divScale double f (.fin (2 ^ 30 - 1) 0) = .fin (2 ^ 30 - 1) (0 - f) :=
      round_id double _ _ ⟨by decide, by show (-1074 : ℤ) ≤ _; omega, by show _ ≤ (971 : ℤ); omega⟩ (by decide)
    rw [h1, h2]
    have hup : F.p < 30 → -(f : ℤ) + 30 = ((30 : ℕ) : ℤ) - f := fun _ => by omega
    have key : ∀ hp : F.p < 30, _ := fun hp => round_up F hF.ok 30 (0 - (f : ℤ)) hp (by
      have := hF.ok.sub
      cases hF
      · show (-24 : ℤ) ≤ _ + ((30 - 11 : ℕ) : ℤ); omega
      · show (-149 : ℤ) ≤ _ + ((30 - 24 : ℕ) : ℤ); omega
      · exact absurd hp (by decide))
    rcases Nat.lt_or_ge F.p 30 with hp | hp
    · rcases key hp with ⟨m', e', h6, h7⟩ | ⟨h6, h7⟩
      · left
        refine ⟨m', e', h6, Or.inl ?_⟩
        rw [h7]
        congr 1
        omega
      · right
        exact ⟨h6, by omega⟩
    · have hFd : F = double := by
        cases hF
        · exact absurd hp (by decide)
        · exact absurd hp (by decide)
        · rfl
      subst hFd
      left
      refine ⟨2 ^ 30 - 1, 0 - f,
        round_id double _ _ ⟨by decide, by show (-1074 : ℤ) ≤ _; omega, by show _ ≤ (971 : ℤ); omega⟩ (by decide),
        Or.inr ?_⟩
      unfold val
      push_cast
      rw [zero_sub]
      norm_num

/-! ## Floating-point numbers -/

/-- the fixed-point number the encoding is meant to give: the integer part of `q`, held within `k - 1` bits -/
def fxp (k : ℕ) (q : ℚ) : ℤ := max (-2 ^ (k - 2)) (min (2 ^ (k - 2) - 1) (truncQ q))

theorem truncQ_lt {q : ℚ} {n : ℤ} (h : q < n) (hn : 0 < n) : truncQ q < n := by
  unfold truncQ
  split_ifs with h0
  · exact Int.floor_lt.2 h
  · have : ⌈q⌉ ≤ 0 := Int.ceil_le.2 (by push_cast; linarith)
    omega

theorem le_truncQ {q : ℚ} {n : ℤ} (h : n ≤ q) : n ≤ truncQ q := by
  have := truncQ_mono h
  rwa [truncQ_int] at this

theorem truncQ_le {q : ℚ} {n : ℤ} (h : q ≤ n) : truncQ q ≤ n := by
  have := truncQ_mono h
  rwa [truncQ_int] at this

theorem val_scale (m e : ℤ) (f : ℕ) : val m (e + f) = val m e * 2 ^ f := by
  unfold val
  rw [zpow_add₀ (by norm_num), zpow_natCast, mul_assoc]

theorem scale_sub (a f : ℕ) : (2 : ℚ) ^ ((a : ℤ) - f) * 2 ^ f = 2 ^ a := by
  rw [← zpow_natCast, ← zpow_natCast, ← zpow_add₀ (by norm_num)]; congr 1; omega

/-- **C13** A finite floating-point number `x` is encoded as the integer part of `x * 2^f`, saturated at
`[-2^(k-2), 2^(k-2) - 1]` -/
theorem c13_float (F : Fmt) (hF : IsFloat F) (k f : ℕ) (hk : k = 32 ∨ k = 64 ∨ k = 128) (hf : f + 2 ≤ k)
    (m e : ℤ) (hx : Rep F m e) : encodeFloat F k f (.fin m e) = some (fxp k (val m e * 2 ^ f)) := by
  obtain ⟨a, rfl⟩ : ∃ a, k = a + 2 := ⟨k - 2, by omega⟩
  have ha : a ≤ 126 := by omega
  have hfa : f ≤ a := by omega
  have hsf := scale_sub a f
  have hpf : (0 : ℚ) < 2 ^ f := by positivity
  have hpa : (0 : ℤ) < 2 ^ a := by positivity
  have hfx : fxp (a + 2) (val m e * 2 ^ f) = max (-2 ^ a) (min (2 ^ a - 1) (truncQ (val m e * 2 ^ f))) := rfl
  have hb := rep_bound hx
  -- the number below both bounds
  have inner : |val m e| < 2 ^ ((a : ℤ) - f) → toInt (a + 2) (mulScale (arith F) f (.fin m e)) = some (fxp (a + 2) (val m e * 2 ^ f)) := by
    intro hlt
    have hq : |val m e * 2 ^ f| < 2 ^ a := by
      rw [abs_mul, abs_of_pos hpf, ← hsf]
      exact mul_lt_mul_of_pos_right hlt hpf
    have har : IsFloat (arith F) ∧ F.p ≤ (arith F).p ∧ (arith F).emin ≤ F.emin ∧ 127 ≤ (arith F).emax + (arith F).p := by
      cases hF
      · exact ⟨IsFloat.single, by decide, by decide, by decide⟩
      · exact ⟨IsFloat.single, by decide, by decide, by decide⟩
      · exact ⟨IsFloat.double, by decide, by decide, by decide⟩
    obtain ⟨m', e', h1, h2, _⟩ := round_val (arith F) har.1.ok m (e + f) m (e + f) rfl
      (lt_of_lt_of_le hx.1 (Nat.pow_le_pow_right (by norm_num) har.2.1)) (by have := hx.2.1; omega)
      (by
        rw [val_scale]
        refine hq.trans_le ?_
        rw [← zpow_natCast]
        exact zpow_le_zpow_right₀ (by norm_num) (by omega))
    have h3 : mulScale (arith F) f (.fin m e) = .fin m' e' := h1
    rw [val_scale] at h2
    rw [abs_lt] at hq
    have hu : truncQ (val m e * 2 ^ f) < 2 ^ a := truncQ_lt (by push_cast; exact hq.2) hpa
    have hl : -2 ^ a ≤ truncQ (val m e * 2 ^ f) := le_truncQ (by push_cast; exact hq.1.le)
    have hA : (2 : ℤ) ^ a ≤ 2 ^ (a + 2 - 1) := pow_le_pow_right₀ (by norm_num) (by omega)
    rw [h3, toInt_val _ _ _ (by rw [h2]; omega), h2, hfx]
    congr 1
    omega
  -- the upper bound
  have hup : ∀ q : ℚ, (q = 2 ^ ((a : ℤ) - f) ∨ q = ((2 : ℚ) ^ a - 1) * 2 ^ (-(f : ℤ))) →
      q ≤ 2 ^ ((a : ℤ) - f) ∧ (q ≤ val m e → fxp (a + 2) (val m e * 2 ^ f) = 2 ^ a - 1) := by
    intro q hq
    have hone : ((2 : ℚ) ^ a - 1) * 2 ^ (-(f : ℤ)) * 2 ^ f = 2 ^ a - 1 := by
      rw [mul_assoc, ← zpow_natCast (2 : ℚ) f, ← zpow_add₀ (by norm_num)]; simp
    have hqf : q * 2 ^ f ≤ 2 ^ a ∧ (2 : ℚ) ^ a - 1 ≤ q * 2 ^ f := by
      rcases hq with rfl | rfl
      · rw [hsf]; constructor <;> linarith
      · rw [hone]; constructor <;> linarith
    constructor
    · refine le_of_mul_le_mul_right ?_ hpf
      rw [hsf]; exact hqf.1
    · intro hle
      have h1 : (2 : ℚ) ^ a - 1 ≤ val m e * 2 ^ f := hqf.2.trans (mul_le_mul_of_nonneg_right hle hpf.le)
      have h2 : (2 : ℤ) ^ a - 1 ≤ truncQ (val m e * 2 ^ f) := le_truncQ (by push_cast; exact h1)
      rw [hfx]
      omega
  have hlo : val m e ≤ -2 ^ ((a : ℤ) - f) → fxp (a + 2) (val m e * 2 ^ f) = -2 ^ a := by
    intro hle
    have h1 : val m e * 2 ^ f ≤ -2 ^ a := by
      have := mul_le_mul_of_nonneg_right hle hpf.le
      rwa [neg_mul, hsf] at this
    have h2 : truncQ (val m e * 2 ^ f) ≤ -2 ^ a := truncQ_le (by push_cast; exact h1)
    rw [hfx]
    omega
  have hbig : F.emax + F.p ≤ (a : ℤ) - f → |val m e| < 2 ^ ((a : ℤ) - f) := fun h =>
    hb.trans_le (zpow_le_zpow_right₀ (by norm_num) h)
  have hunf : encodeFloat F (a + 2) f (.fin m e) =
      if (conv F (divScale double f (ofInt double (2 ^ a - 1)))).le (.fin m e) then some (2 ^ a - 1)
      else if (Fl.fin m e).le (conv F (divScale double f (ofInt double (-2 ^ a)))) then some (-2 ^ a)
      else toInt (a + 2) (mulScale (arith F) f (.fin m e)) := by
    unfold encodeFloat
    simp only [reduceCtorEq, if_false]
    rfl
  rw [hunf]
  rcases upper_bound F hF a f (by omega) hfa with ⟨mu, eu, hU, hUv⟩ | ⟨hU, hUb⟩
  · obtain ⟨hu1, hu2⟩ := hup _ hUv
    rw [hU]
    by_cases hc : val mu eu ≤ val m e
    · rw [if_pos (by simpa [Fl.le] using hc), hu2 hc]
    · rw [if_neg (by simpa [Fl.le] using hc)]
      rcases lower_bound F hF a f ha hfa with ⟨ml, el, hL, hLv⟩ | ⟨hL, hLb⟩
      · rw [hL]
        by_cases hd : val m e ≤ val ml el
        · rw [if_pos (by simpa [Fl.le] using hd), hlo (by rw [← hLv]; exact hd)]
        · rw [if_neg (by simpa [Fl.le] using hd)]
          apply inner
          rw [abs_lt]
          rw [hLv] at hd
          constructor <;> linarith
      · rw [hL, if_neg (by simp [Fl.le])]
        exact inner (hbig hLb)
  · rw [hU, if_neg (by simp [Fl.le])]
    rcases lower_bound F hF a f ha hfa with ⟨ml, el, hL, hLv⟩ | ⟨hL, hLb⟩
    · rw [hL]
      by_cases hd : val m e ≤ val ml el
      · rw [if_pos (by simpa [Fl.le] using hd), hlo (by rw [← hLv]; exact hd)]
      · rw [if_neg (by simpa [Fl.le] using hd)]
        exact inner (hbig hUb)
    · rw [hL, if_neg (by simp [Fl.le])]
      exact inner (hbig hUb)

/-- **C13** NaN is encoded as zero, infinities saturate -/
theorem c13_special (F : Fmt) (hF : IsFloat F) (k f : ℕ) (hk : k = 32 ∨ k = 64 ∨ k = 128) (hf : f + 2 ≤ k) :
    encodeFloat F k f .nan = some 0 ∧ encodeFloat F k f (.inf false) = some (2 ^ (k - 2) - 1) ∧
    encodeFloat F k f (.inf true) = some (-2 ^ (k - 2)) := by
  have hU := upper_bound F hF (k - 2) f (by omega) (by omega)
  have hL := lower_bound F hF (k - 2) f (by omega) (by omega)
  refine ⟨rfl, ?_, ?_⟩
  · unfold encodeFloat
    simp only [reduceCtorEq, if_false]
    rcases hU with ⟨m, e, h, _⟩ | ⟨h, _⟩ <;> rw [h] <;> simp [Fl.le]
  · unfold encodeFloat
    simp only [reduceCtorEq, if_false]
    rcases hU with ⟨m, e, h, _⟩ | ⟨h, _⟩ <;> rw [h] <;>
      rcases hL with ⟨m', e', h', _⟩ | ⟨h', _⟩ <;> rw [h'] <;> simp [Fl.le]

/-- a value of the floating-point type -/
def IsVal (F : Fmt) : Fl → Prop
  | .fin m e => Rep F m e
  | _ => True

theorem fxp_range (k : ℕ) (q : ℚ) : -2 ^ (k - 2) ≤ fxp k q ∧ fxp k q ≤ 2 ^ (k - 2) - 1 := by
  have : (0 : ℤ) < 2 ^ (k - 2) := by positivity
  unfold fxp
  omega

/-- **C13** encoding is monotone -/
theorem c13_mono (F : Fmt) (hF : IsFloat F) (k f : ℕ) (hk : k = 32 ∨ k = 64 ∨ k = 128) (hf : f + 2 ≤ k)
    (x y : Fl) (hx : IsVal F x) (hy : IsVal F y) (hle : x.le y = true) :
    ∃ a b, encodeFloat F k f x = some a ∧ encodeFloat F k f y = some b ∧ a ≤ b := by
  obtain ⟨_, hp, hn⟩ := c13_special F hF k f hk hf
  have hpos : (0 : ℤ) < 2 ^ (k - 2) := by positivity
  cases x with
  | nan => simp [Fl.le] at hle
  | inf b =>
    cases y with
    | nan => cases b <;> simp [Fl.le] at hle
    | inf b' =>
      cases b <;> cases b'
      · exact ⟨_, _, hp, hp, le_refl _⟩
      · simp [Fl.le] at hle
      · exact ⟨_, _, hn, hp, by omega⟩
      · exact ⟨_, _, hn, hn, le_refl _⟩
    | fin m e =>
      cases b
      · simp [Fl.le] at hle
      · exact ⟨_, _, hn, c13_float F hF k f hk hf m e hy, (fxp_range k _).1⟩
  | fin m e =>
    cases y with
    | nan => simp [Fl.le] at hle
    | inf b' =>
      cases b'
      · exact ⟨_, _, c13_float F hF k f hk hf m e hx, hp, (fxp_range k _).2⟩
      · simp [Fl.le] at hle
    | fin m' e' =>
      refine ⟨_, _, c13_float F hF k f hk hf m e hx, c13_float F hF k f hk hf m' e' hy, ?_⟩
      have h : val m e ≤ val m' e' := by simpa [Fl.le] using hle
      have := truncQ_mono (mul_le_mul_of_nonneg_right h (by positivity : (0 : ℚ) ≤ 2 ^ f))
      unfold fxp
      omega

/-- **C13** decoding is exact for a ring element whose scaled value is a number of the floating-point type -/
theorem c13_decode_exact (F : Fmt) (hF : IsFloat F) (f : ℕ) (n c j : ℤ) (hn : n.natAbs ≤ 2 ^ 127) (hj : 0 ≤ j)
    (hnc : (n : ℚ) = c * 2 ^ j) (hc : c.natAbs < 2 ^ F.p) (he : F.emin ≤ j - f) (hv : |(n : ℚ) / 2 ^ f| < 2 ^ (F.emax + F.p)) :
    ∃ m e, decodeFloat F f n = .fin m e ∧ val m e = n / 2 ^ f ∧ Rep F m e := by
  have hFl := hF.le
  have hc53 : c.natAbs < 2 ^ double.p := lt_of_lt_of_le hc (Nat.pow_le_pow_right (by norm_num) hFl.1)
  have h0 : val n 0 = val c j := by unfold val; rw [hnc]; simp
  have hnabs : |(n : ℚ)| ≤ 2 ^ 127 := by
    rw [← Int.cast_abs, ← Int.natCast_natAbs]; exact_mod_cast hn
  have hv0 : val c j = n := by rw [← h0]; simp [val]
  have hv1 : val c (j - f) = n / 2 ^ f := by
    rw [← hv0]
    unfold val
    rw [sub_eq_add_neg, zpow_add₀ (by norm_num), zpow_neg, zpow_natCast]
    field_simp
  obtain ⟨m1, e1, h1, h2, _⟩ := round_val double double_ok n 0 c j h0 hc53 (by show (-1074 : ℤ) ≤ _; omega) (by
    rw [hv0]
    refine hnabs.trans_lt ?_
    rw [← zpow_natCast]
    exact zpow_lt_zpow_right₀ (by norm_num) (by show ((127 : ℕ) : ℤ) < 971 + 53; omega))
  have h3 : val m1 (e1 - f) = val c (j - f) := by
    rw [hv1, ← hv0, ← h2]
    unfold val
    rw [sub_eq_add_neg, zpow_add₀ (by norm_num), zpow_neg, zpow_natCast]
    field_simp
  obtain ⟨m2, e2, h4, h5, _⟩ := round_val double double_ok m1 (e1 - f) c (j - f) h3 hc53 (by show (-1074 : ℤ) ≤ _; omega) (by
    rw [hv1]
    refine hv.trans_le ?_
    exact zpow_le_zpow_right₀ (by norm_num) (by show _ ≤ (971 : ℤ) + 53; omega))
  obtain ⟨m3, e3, h6, h7, h8⟩ := round_val F hF.ok m2 e2 c (j - f) h5 hc he (by rw [hv1]; exact hv)
  refine ⟨m3, e3, ?_, by rw [h7, hv1], h8⟩
  unfold decodeFloat ofInt
  rw [h1]
  show conv F (rnd double m1 (e1 - f)) = _
  rw [h4]
  exact h6

/-- **C13** Encoding and decoding a finite number in range: the result is `x` cut to `f` fraction bits, so it is within
`2^-f` of `x` and not further from zero, and equal to `x` if `x` has at most `f` fraction bits -/
theorem c13_roundtrip (F : Fmt) (hF : IsFloat F) (k f : ℕ) (hk : k = 32 ∨ k = 64 ∨ k = 128) (hf : f + 2 ≤ k)
    (m e : ℤ) (hx : Rep F m e) (hlo : -2 ^ (k - 2) ≤ val m e * 2 ^ f) (hhi : val m e * 2 ^ f < 2 ^ (k - 2)) :
    ∃ n m' e', encodeFloat F k f (.fin m e) = some n ∧ decodeFloat F f n = .fin m' e' ∧
      val m' e' * 2 ^ f = n ∧ |val m e - val m' e'| < 1 / 2 ^ f ∧ |val m' e'| ≤ |val m e| ∧ 0 ≤ val m' e' * val m e ∧
      ((∃ z : ℤ, val m e * 2 ^ f = z) → val m' e' = val m e) := by
  have hpf : (0 : ℚ) < 2 ^ f := by positivity
  have hpk : (0 : ℤ) < 2 ^ (k - 2) := by positivity
  have henc := c13_float F hF k f hk hf m e hx
  have hu : truncQ (val m e * 2 ^ f) < 2 ^ (k - 2) := truncQ_lt (by push_cast; exact hhi) hpk
  have hl : -2 ^ (k - 2) ≤ truncQ (val m e * 2 ^ f) := le_truncQ (by push_cast; exact hlo)
  have hfx : fxp k (val m e * 2 ^ f) = truncQ (val m e * 2 ^ f) := by unfold fxp; omega
  rw [hfx] at henc
  obtain ⟨t1, t2, t3⟩ := truncQ_err (val m e * 2 ^ f)
  obtain ⟨n, hn⟩ : ∃ n, n = truncQ (val m e * 2 ^ f) := ⟨_, rfl⟩
  rw [← hn] at henc hu hl t1 t2 t3
  -- the absolute value
  have habs : |(n : ℚ) / 2 ^ f| ≤ |val m e| := by
    rw [abs_div, abs_of_pos hpf, div_le_iff₀ hpf]
    rwa [abs_mul, abs_of_pos hpf] at t2
  have hnn : n.natAbs ≤ 2 ^ 127 := by
    have h1 : n.natAbs ≤ 2 ^ (k - 2) := by zify; rw [abs_le]; constructor <;> push_cast <;> omega
    exact h1.trans (Nat.pow_le_pow_right (by norm_num) (by omega))
  -- the form of the encoded number
  have hform : ∃ c j : ℤ, 0 ≤ j ∧ (n : ℚ) = c * 2 ^ j ∧ c.natAbs < 2 ^ F.p ∧ F.emin ≤ j - f := by
    rw [← val_scale] at hn
    rcases le_total 0 (e + f) with h | h
    · refine ⟨m, e + f, h, ?_, hx.1, by have := hx.2.1; omega⟩
      obtain ⟨d, hd⟩ := Int.eq_ofNat_of_zero_le h
      rw [truncQ_val, if_pos h, hd, Int.toNat_natCast] at hn
      rw [hn, hd, zpow_natCast]; push_cast; rfl
    · refine ⟨n, 0, le_refl _, by simp, ?_, by have := hx.2.1; omega⟩
      have h1 : |(n : ℚ)| ≤ m.natAbs := by
        refine t2.trans ?_
        rw [← val_scale, val_abs]
        have h2 : (2 : ℚ) ^ (e + f : ℤ) ≤ 1 := zpow_le_one_of_nonpos₀ (by norm_num) h
        have h3 : (0 : ℚ) ≤ m.natAbs := by positivity
        nlinarith
      have h2 : n.natAbs ≤ m.natAbs := by
        have h3 : |n| ≤ |m| := by
          rw [Nat.cast_natAbs, ← Int.cast_abs] at h1
          exact Int.cast_le.1 h1
        rw [Int.abs_eq_natAbs, Int.abs_eq_natAbs] at h3
        exact Int.ofNat_le.1 h3
      have := hx.1
      omega
  obtain ⟨c, j, c1, c2, c3, c4⟩ := hform
  obtain ⟨m', e', d1, d2, _⟩ := c13_decode_exact F hF f n c j hnn c1 c2 c3 c4 (habs.trans_lt (rep_bound hx))
  refine ⟨n, m', e', henc, d1, ?_, ?_, ?_, ?_, ?_⟩
  · rw [d2]; field_simp
  · rw [d2, lt_div_iff₀ hpf]
    have : |val m e - n / 2 ^ f| * 2 ^ f = |val m e * 2 ^ f - n| := by
      nth_rewrite 2 [← abs_of_pos hpf]
      rw [← abs_mul, sub_mul]
      congr 2
      field_simp
    rw [this]; exact t1
  · rw [d2]; exact habs
  · rw [d2]
    have h1 : (n : ℚ) / 2 ^ f * val m e = (n * (val m e * 2 ^ f)) / (2 ^ f * 2 ^ f) := by field_simp
    rw [h1]; positivity
  · rintro ⟨z, hz⟩
    rw [hz, truncQ_int] at hn
    rw [d2, hn, ← hz]; field_simp

/-- **C13** Decoding a saturated number gives the bound, up to the precision of the type, or an infinity if the bound is too
large for the type -/
theorem c13_saturated (F : Fmt) (hF : IsFloat F) (k f : ℕ) (hk : k = 32 ∨ k = 64 ∨ k = 128) (hf : f + 2 ≤ k) :
    (decodeFloat F f (2 ^ (k - 2) - 1) = .inf false ∧ F.emax + F.p ≤ ((k - 2 : ℕ) : ℤ) - f ∨
      ∃ m e, decodeFloat F f (2 ^ (k - 2) - 1) = .fin m e ∧
        (val m e = 2 ^ (((k - 2 : ℕ) : ℤ) - f) ∨ val m e = ((2 : ℚ) ^ (k - 2) - 1) * 2 ^ (-(f : ℤ)))) ∧
    (decodeFloat F f (-2 ^ (k - 2)) = .inf true ∧ F.emax + F.p ≤ ((k - 2 : ℕ) : ℤ) - f ∨
      ∃ m e, decodeFloat F f (-2 ^ (k - 2)) = .fin m e ∧ val m e = -2 ^ (((k - 2 : ℕ) : ℤ) - f)) :=
  ⟨(upper_bound F hF (k - 2) f (by omega) (by omega)).symm, (lower_bound F hF (k - 2) f (by omega) (by omega)).symm⟩

/-! ## Integers -/

/-- the range of an integer type of `w` bits -/
def IntRange (w : ℕ) (signed : Bool) (x : ℤ) : Prop :=
  if signed then -2 ^ (w - 1) ≤ x ∧ x < 2 ^ (w - 1) else 0 ≤ x ∧ x < 2 ^ w

/-- **C13** every integer of a type that is not wider than the ring is recovered -/
theorem c13_int (k w : ℕ) (signed : Bool) (x : ℤ) (hw : 0 < w) (hk : w ≤ k) (hx : IntRange w signed x) :
    ∃ n : BitVec k, encodeInt k w x = some n ∧ decodeInt w signed n = x := by
  refine ⟨_, if_pos hk, ?_⟩
  have hmod : ∀ y : ℤ, (BitVec.ofInt w (BitVec.ofInt k y).toInt) = BitVec.ofInt w y := by
    intro y
    apply BitVec.eq_of_toInt_eq
    rw [BitVec.toInt_ofInt, BitVec.toInt_ofInt, BitVec.toInt_ofInt]
    exact Int.bmod_bmod_of_dvd (by exact_mod_cast Nat.pow_dvd_pow 2 hk)
  unfold decodeInt
  rw [hmod]
  unfold IntRange at hx
  have h2 : (2 : ℤ) ^ w = 2 * 2 ^ (w - 1) := by rw [← pow_succ']; congr 1; omega
  cases signed with
  | true =>
    simp only [if_true] at hx ⊢
    exact BitVec.toInt_ofInt_eq_self hw hx.1 hx.2
  | false =>
    simp only [Bool.false_eq_true, if_false] at hx ⊢
    rw [BitVec.toNat_ofInt]
    rw [Int.emod_eq_of_lt hx.1 (by push_cast; exact hx.2)]
    omega

/-- **C13** an integer type wider than the ring is refused -/
theorem c13_int_wide (k w : ℕ) (x : ℤ) (h : k < w) : encodeInt k w x = none := if_neg (by omega)

/-- **C13** booleans are recovered -/
theorem c13_bool (k : ℕ) (hk : 8 ≤ k) (b : Bool) :
    ∃ n : BitVec k, encodeInt k 8 (if b then 1 else 0) = some n ∧ decodeBool n = b := by
  refine ⟨_, if_pos hk, ?_⟩
  have h0 : (1#k &&& 1#k) ≠ 0#k := by
    intro h
    have := congrArg BitVec.toNat h
    simp at this
    omega
  cases b
  · simp [decodeBool]
  · simp [decodeBool]
    omega

/-! ## Arrays -/

theorem ptAddr_spec {v : View} (hv : v.WF) {idx : Index} (hi : InB idx v.shape) :
    ptAddr v (pos idx v.shape) = some (v.addr idx) := by
  unfold ptAddr
  split_ifs with hc
  · unfold View.isCompact at hc
    rw [Bool.or_eq_true, decide_eq_true_eq, decide_eq_true_eq] at hc
    have hp := size_pos_of_InB hi
    rw [addr_eq hv]
    rcases hc with hc | hc
    · rw [numel_eq_size] at hc
      have h2 : pos idx v.shape = 0 := by have := pos_lt_size hi; omega
      have h3 : idx = List.replicate v.shape.length 0 := pos_inj hi (InB_zeros hp) (by rw [h2, pos_zeros])
      rw [h2, h3, strideDot_zeros]; rfl
    · rw [hc, strideDot_compact hi]
  · rw [unflatten_of_InB hi]; rfl

/-- **C13** Encoding an array: a compact array of the same shape, every element being the encoding of the element at the same
index of the plaintext, whatever the strides of the plaintext -/
theorem c13_array {α β : Type} (enc : α → Option β) (buf : Array α) (v : View) (hv : v.Valid buf)
    (henc : ∀ idx x, InB idx v.shape → v.get buf idx = some x → (enc x).isSome) :
    ∃ ys, encodeArr enc buf v = some ys ∧ ys.length = size v.shape ∧
      ∀ idx, InB idx v.shape → ys[pos idx v.shape]? = (v.get buf idx).bind enc := by
  have key : ∀ p, p < size v.shape → ∃ y, (do let i ← ptAddr v p; let x ← rd buf i; enc x) = some y ∧
      ∀ idx, InB idx v.shape → pos idx v.shape = p → (v.get buf idx).bind enc = some y := by
    intro p hp
    obtain ⟨idx, hi, rfl⟩ := exists_InB hp
    obtain ⟨x, hx⟩ := hv.2 idx hi
    obtain ⟨y, hy⟩ := Option.isSome_iff_exists.1 (henc idx x hi hx)
    refine ⟨y, ?_, ?_⟩
    · rw [ptAddr_spec hv.1 hi]
      have : rd buf (v.addr idx) = some x := hx
      simp [this, hy]
    · intro idx' hi' he
      rw [pos_inj hi' hi he, hx]
      exact hy
  have main : ∀ n, n ≤ size v.shape →
      ∃ ys, (List.range n).mapM (fun p => do let i ← ptAddr v p; let x ← rd buf i; enc x) = some ys ∧ ys.length = n ∧
        ∀ idx, InB idx v.shape → pos idx v.shape < n → ys[pos idx v.shape]? = (v.get buf idx).bind enc := by
    intro n hn
    induction n with
    | zero => exact ⟨[], rfl, rfl, fun _ _ h => absurd h (by omega)⟩
    | succ n ih =>
      obtain ⟨ys, h1, h2, h3⟩ := ih (by omega)
      obtain ⟨y, h4, h5⟩ := key n (by omega)
      refine ⟨ys ++ [y], ?_, by simp [h2], ?_⟩
      · rw [List.range_succ, List.mapM_append, h1]
        simp only [List.mapM_cons, List.mapM_nil]
        rw [h4]
        rfl
      · intro idx hi hlt
        rcases Nat.lt_or_ge (pos idx v.shape) n with h | h
        · rw [List.getElem?_append_left (by omega), h3 idx hi h]
        · have he : pos idx v.shape = n := by omega
          rw [h5 idx hi he, he, List.getElem?_append_right (by omega), h2]
          simp
  obtain ⟨ys, h1, h2, h3⟩ := main (size v.shape) (le_refl _)
  refine ⟨ys, ?_, h2, fun idx hi => h3 idx hi (pos_lt_size hi)⟩
  unfold encodeArr
  rw [numel_eq_size]
  exact h1

/-- **C13** Decoding an array into a plaintext buffer without aliased elements: every element of the buffer view is the decoding
of the ring element at the same index, and nothing else in the buffer is changed -/
theorem c13_decode_array {α β : Type} (dec : β → α) (sbuf : Array β) (sv : View) (buf : Array α) (v : View)
    (hs : sv.Valid sbuf) (hv : v.Valid buf) (hsh : sv.shape = v.shape)
    (hinj : ∀ idx idx', InB idx v.shape → InB idx' v.shape → v.addr idx = v.addr idx' → idx = idx') :
    ∃ out, decodeArr dec sbuf sv buf v = some out ∧ out.size = buf.size ∧
      (∀ idx, InB idx v.shape → v.get out idx = (sv.get sbuf idx).map dec) ∧
      ∀ a, (∀ idx, InB idx v.shape → v.addr idx ≠ a) → rd out a = rd buf a := by
  have main : ∀ n, n ≤ size v.shape → ∃ out, (List.range n).foldlM (init := buf) (fun out p => do
        let i ← sv.addrLin p
        let x ← rd sbuf i
        let j ← ptAddr v p
        wr out j (dec x)) = some out ∧ out.size = buf.size ∧
      (∀ idx, InB idx v.shape → pos idx v.shape < n → v.get out idx = (sv.get sbuf idx).map dec) ∧
      ∀ a, (∀ idx, InB idx v.shape → pos idx v.shape < n → v.addr idx ≠ a) → rd out a = rd buf a := by
    intro n hn
    induction n with
    | zero => exact ⟨buf, rfl, rfl, fun _ _ h => absurd h (by omega), fun _ _ => rfl⟩
    | succ n ih =>
      obtain ⟨out, h1, h2, h3, h4⟩ := ih (by omega)
      obtain ⟨idx, hi, hp⟩ := exists_InB (sh := v.shape) (p := n) (by omega)
      have his : InB idx sv.shape := by rw [hsh]; exact hi
      obtain ⟨x, hx⟩ := hs.2 idx his
      obtain ⟨y, hy⟩ := hv.2 idx hi
      have hr : 0 ≤ v.addr idx ∧ (v.addr idx).toNat < out.size := by
        have : rd buf (v.addr idx) = some y := hy
        unfold rd at this
        split_ifs at this with hneg
        rw [Array.getElem?_eq_some_iff] at this
        obtain ⟨hlt, _⟩ := this
        exact ⟨by omega, by omega⟩
      have hw : wr out (v.addr idx) (dec x) = some (out.set (v.addr idx).toNat (dec x) hr.2) := by
        unfold wr
        rw [if_neg (by omega), dif_pos hr.2]
      have hrd : ∀ a, rd (out.set (v.addr idx).toNat (dec x) hr.2) a = if a = v.addr idx then some (dec x) else rd out a := by
        intro a
        unfold rd
        by_cases ha : a < 0
        · rw [if_pos ha, if_neg (by omega), if_pos ha]
        · rw [if_neg ha, if_neg ha, Array.getElem?_set]
          by_cases he : a = v.addr idx
          · rw [if_pos he, if_pos (by rw [he])]
          · rw [if_neg he, if_neg (by omega)]
      refine ⟨out.set (v.addr idx).toNat (dec x) hr.2, ?_, ?_, ?_, ?_⟩
      · rw [List.range_succ, List.foldlM_append, h1]
        have hl := c03_linear_index (v := sv) hs.1 his
        rw [hsh, hp] at hl
        have hpt := ptAddr_spec hv.1 hi
        rw [hp] at hpt
        have hx' : rd sbuf (sv.addr idx) = some x := hx
        simp only [Option.bind_eq_bind, Option.bind_some, List.foldlM_cons, List.foldlM_nil, hl, hpt, hx', hw]
        rfl
      · simpa using h2
      · intro idx' hi' hlt
        show rd _ _ = _
        rw [hrd]
        by_cases he : idx' = idx
        · subst he
          rw [if_pos rfl, hx]; rfl
        · rw [if_neg (fun h => he (hinj _ _ hi' hi h))]
          have : pos idx' v.shape ≠ n := fun h => he (pos_inj hi' hi (by omega))
          exact h3 idx' hi' (by omega)
      · intro a ha
        rw [hrd, if_neg (fun h => ha idx hi (by omega) h.symm)]
        exact h4 a fun idx' hi' hlt => ha idx' hi' (by omega)
  obtain ⟨out, h1, h2, h3, h4⟩ := main (size v.shape) (le_refl _)
  refine ⟨out, ?_, h2, fun idx hi => h3 idx hi (pos_lt_size hi), fun a ha => h4 a fun idx hi _ => ha idx hi⟩
  unfold decodeArr
  rw [numel_eq_size, hsh]
  exact h1

/-! ## Examples -/

-- 0.15625 = 5 * 2^-5 in a 64-bit ring with 18 fraction bits, and back
example : encodeFloat single 64 18 (.fin 5 (-5)) = some 40960 ∧ decodeFloat single 18 40960 = .fin 40960 (-18) := by
  decide +kernel

-- `0.1f` loses its low bits, towards zero on both sides
example : encodeFloat single 64 18 (.fin 13421773 (-27)) = some 26214 ∧
    encodeFloat single 64 18 (.fin (-13421773) (-27)) = some (-26214) := by decide +kernel

-- the upper bound of the 64-bit ring is rounded up to a power of two; the greatest `float` below it does not saturate
example : encodeFloat single 64 0 (.fin (2 ^ 23) 39) = some (2 ^ 62 - 1) ∧
    encodeFloat single 64 0 (.fin (2 ^ 24 - 1) 38) = some (2 ^ 62 - 2 ^ 38) := by decide +kernel

-- every finite `half` is in range of the 64-bit ring
example : encodeFloat half 64 18 (.fin 2047 5) = some (2047 * 2 ^ 23) := by decide +kernel

example : encodeFloat half 32 18 (.fin 2047 5) = some (2 ^ 30 - 1) := by decide +kernel

-- the hypotheses of the round trip
example : Rep single 13421773 (-27) ∧ IsFloat single ∧ (-2 ^ (64 - 2) : ℚ) ≤ val 13421773 (-27) * 2 ^ 18 ∧
    val 13421773 (-27) * 2 ^ 18 < 2 ^ (64 - 2) :=
  ⟨⟨by decide, by decide, by decide⟩, .single, by norm_num [val], by norm_num [val]⟩

-- a signed and an unsigned integer
example : IntRange 8 true (-128) ∧ decodeInt 8 true (BitVec.ofInt 32 (-128)) = -128 ∧
    IntRange 8 false 255 ∧ decodeInt 8 false (BitVec.ofInt 32 255) = 255 := by
  unfold IntRange; decide +kernel

-- a transposed plaintext
example : encodeArr (encodeInt 32 8) #[1, 2, 3, 4, 5, 6] ⟨[3, 2], [1, 3], 0⟩ = some [1#32, 4#32, 2#32, 5#32, 3#32, 6#32] := by
  decide +kernel

example : decodeArr (decodeInt 8 true) #[1#32, 4#32, 2#32, 5#32] ⟨[2, 2], [2, 1], 0⟩ #[0, 0, 0, 0] ⟨[2, 2], [1, 2], 0⟩ =
    some #[1, 2, 4, 5] := by decide +kernel

end Spu.Props

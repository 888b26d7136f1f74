import Verif.Props.ExpPrime
import Mathlib.Tactic.FieldSimp

set_option autoImplicit false

/-! # C84: private products, wrap bit and conversion back to the ring -/

namespace Spu.Props.ExpPrime
open Spu.Model.Gfmp Spu.Model.ExpPrime Spu.Spec.ExpPrime

variable {w q : ℕ}

/-! ### Private products -/

/-- C84, ring: whatever the dealer's elements, its adjusted `c0 + c1` is `a b` … -/
theorem c84_deal_ring (a b c0 c1 : BitVec w) : (dealRing a b c0 c1).c0 + (dealRing a b c0 c1).c1 = a * b := by
  simp only [dealRing]; ring

/-- … and the two outputs of `MulPriv` add up to the product of the two private values. -/
theorem c84_mul_priv (d : Deal w) (hd : d.c0 + d.c1 = d.a * d.b) (x y : BitVec w) :
    (mulPriv d x y).1 + (mulPriv d x y).2 = x * y := by
  simp only [mulPriv]; linear_combination hd

/-- the elements of a deal are field elements and `c0 + c1 = a b` modulo the prime -/
structure DealOk (q : ℕ) (d : Deal w) : Prop where
  a : d.a.toNat < 2 ^ q - 1
  b : d.b.toNat < 2 ^ q - 1
  c0 : d.c0.toNat < 2 ^ q - 1
  c1 : d.c1.toNat < 2 ^ q - 1
  mul : (d.c0.toNat + d.c1.toNat) % (2 ^ q - 1) = d.a.toNat * d.b.toNat % (2 ^ q - 1)

theorem add_z (h3 : 3 ≤ q) (hq : q < w) (x y : BitVec w) (hx : x.toNat < 2 ^ q - 1) (hy : y.toNat < 2 ^ q - 1) :
    (addMod q x y).toNat < 2 ^ q - 1 ∧ ((addMod q x y).toNat : ZMod (2 ^ q - 1)) = x.toNat + y.toNat := by
  have hp : 2 ^ 3 ≤ 2 ^ q := Nat.pow_le_pow_right (by omega) h3
  have h := c38_add hq x y (by omega)
  exact ⟨by rw [h]; exact Nat.mod_lt _ (by omega), by rw [h, ZMod.natCast_mod]; push_cast; rfl⟩

theorem sub_z (h3 : 3 ≤ q) (hq : q < w) (x y : BitVec w) (hx : x.toNat < 2 ^ q - 1) (hy : y.toNat < 2 ^ q - 1) :
    (subMod q x y).toNat < 2 ^ q - 1 ∧ ((subMod q x y).toNat : ZMod (2 ^ q - 1)) = x.toNat - y.toNat := by
  have hp : 2 ^ 3 ≤ 2 ^ q := Nat.pow_le_pow_right (by omega) h3
  have h := c38_sub hq x y hx hy
  refine ⟨by rw [h]; exact Nat.mod_lt _ (by omega), ?_⟩
  rw [h, ZMod.natCast_mod, Nat.cast_add, Nat.cast_sub hy.le, ZMod.natCast_self]
  ring

theorem mul_z {mul : BitVec w → BitVec w → BitVec w × BitVec w} (hmul : MulOk mul) (h3 : 3 ≤ q) (hq : q < w) (x y : BitVec w)
    (hx : x.toNat ≤ 2 ^ q - 1) (hy : y.toNat ≤ 2 ^ q - 1) :
    (mulMod mul q x y).toNat < 2 ^ q - 1 ∧ ((mulMod mul q x y).toNat : ZMod (2 ^ q - 1)) = x.toNat * y.toNat := by
  have hp : 2 ^ 3 ≤ 2 ^ q := Nat.pow_le_pow_right (by omega) h3
  have h := c38_mul hmul (by omega) hq x y hx hy
  exact ⟨by rw [h]; exact Nat.mod_lt _ (by omega), by rw [h, ZMod.natCast_mod]; push_cast; rfl⟩

/-- C84, field: the dealer's adjustment is right for any four field elements. -/
theorem c84_deal_mp {mul : BitVec w → BitVec w → BitVec w × BitVec w} (hmul : MulOk mul) (h3 : 3 ≤ q) (hq : q < w)
    (a b c0 c1 : BitVec w) (ha : a.toNat < 2 ^ q - 1) (hb : b.toNat < 2 ^ q - 1) (hc0 : c0.toNat < 2 ^ q - 1) (hc1 : c1.toNat < 2 ^ q - 1) :
    DealOk q (dealMP mul q a b c0 c1) := by
  obtain ⟨l1, v1⟩ := mul_z hmul h3 hq a b ha.le hb.le
  obtain ⟨l2, v2⟩ := add_z h3 hq c0 c1 hc0 hc1
  obtain ⟨l3, v3⟩ := sub_z h3 hq _ _ l1 l2
  obtain ⟨l4, v4⟩ := add_z h3 hq _ _ hc0 l3
  refine ⟨ha, hb, l4, hc1, ?_⟩
  apply (ZMod.natCast_eq_natCast_iff _ _ _).1
  simp only [dealMP]
  push_cast
  rw [v4, v3, v2, v1]
  ring

/-- C84: the two outputs of `MulPrivModMP` add up to the product of the two private values modulo the prime. -/
theorem c84_mul_priv_mp {mul : BitVec w → BitVec w → BitVec w × BitVec w} (hmul : MulOk mul) (h3 : 3 ≤ q) (hq : q < w)
    (d : Deal w) (hd : DealOk q d) (x y : BitVec w) (hx : x.toNat < 2 ^ q - 1) (hy : y.toNat < 2 ^ q - 1) :
    (mulPrivMP mul q d x y).1.toNat < 2 ^ q - 1 ∧ (mulPrivMP mul q d x y).2.toNat < 2 ^ q - 1 ∧
      ((mulPrivMP mul q d x y).1.toNat + (mulPrivMP mul q d x y).2.toNat) % (2 ^ q - 1) = x.toNat * y.toNat % (2 ^ q - 1) := by
  obtain ⟨l1, v1⟩ := add_z h3 hq d.a x hd.a hx
  obtain ⟨l2, v2⟩ := add_z h3 hq d.b y hd.b hy
  obtain ⟨l3, v3⟩ := mul_z hmul h3 hq _ x l2.le hx.le
  obtain ⟨l4, v4⟩ := mul_z hmul h3 hq _ d.b l1.le hd.b.le
  obtain ⟨l5, v5⟩ := add_z h3 hq _ _ hd.c0 l3
  obtain ⟨l6, v6⟩ := sub_z h3 hq _ _ hd.c1 l4
  refine ⟨l5, l6, ?_⟩
  apply (ZMod.natCast_eq_natCast_iff _ _ _).1
  have hz : ((d.c0.toNat : ZMod (2 ^ q - 1)) + d.c1.toNat) = d.a.toNat * d.b.toNat := by
    have := (ZMod.natCast_eq_natCast_iff _ _ _).2 hd.mul
    push_cast at this
    exact this
  simp only [mulPrivMP]
  push_cast
  rw [v5, v6, v3, v4, v1, v2]
  linear_combination hz

/-! ### Wrap bit -/

theorem half_toNat (h3 : 3 ≤ q) (hq : q < w) : (prime w q >>> 1).toNat = (2 ^ q - 2) / 2 := by
  have hp : 2 ^ q = 2 * 2 ^ (q - 1) := by rw [← pow_succ']; congr 1; omega
  rw [BitVec.toNat_ushiftRight, prime_toNat hq, Nat.shiftRight_eq_div_pow]
  omega

/-- C84: for shares of a number below `(p - 1) / 2`, `WrapBitModMP` returns a sharing of `1{h0 + h1 ≥ p}`. -/
theorem c84_wrap_bit (h3 : 3 ≤ q) (hq : q < w) (d : Deal w) (hd : d.c0 + d.c1 = d.a * d.b) (h0 h1 : BitVec w)
    (l0 : h0.toNat < 2 ^ q - 1) (l1 : h1.toNat < 2 ^ q - 1) (hh : (h0.toNat + h1.toNat) % (2 ^ q - 1) < (2 ^ q - 2) / 2) :
    (wrapBit q d h0 h1).1 + (wrapBit q d h0 h1).2 = if 2 ^ q - 1 ≤ h0.toNat + h1.toNat then 1#w else 0#w := by
  have hp8 : 2 ^ 3 ≤ 2 ^ q := Nat.pow_le_pow_right (by omega) h3
  have hp : 2 ^ q = 2 * 2 ^ (q - 1) := by rw [← pow_succ']; congr 1; omega
  simp only [wrapBit]
  have hm := c84_mul_priv d hd (if h0 < prime w q >>> 1 then 1#w else 0#w) (if h1 < prime w q >>> 1 then 1#w else 0#w)
  set z := mulPriv d (if h0 < prime w q >>> 1 then 1#w else 0#w) (if h1 < prime w q >>> 1 then 1#w else 0#w)
  have e : 1#w - z.1 + -z.2 = 1#w - (z.1 + z.2) := by ring
  rw [e, hm]
  have c0 : (h0 < prime w q >>> 1) ↔ h0.toNat < (2 ^ q - 2) / 2 := by rw [BitVec.lt_def, half_toNat h3 hq]
  have c1 : (h1 < prime w q >>> 1) ↔ h1.toNat < (2 ^ q - 2) / 2 := by rw [BitVec.lt_def, half_toNat h3 hq]
  simp only [c0, c1]
  by_cases hw : 2 ^ q - 1 ≤ h0.toNat + h1.toNat
  · rw [if_pos hw]
    by_cases b0 : h0.toNat < (2 ^ q - 2) / 2
    · rw [if_pos b0, if_neg (by omega)]; simp
    · rw [if_neg b0]; simp
  · rw [if_neg hw]
    rw [Nat.mod_eq_of_lt (by omega)] at hh
    rw [if_pos (by omega), if_pos (by omega)]
    simp

/-- C84: the bound of the comment, `h < p / 2`, is one too large: the sharing `((p - 1) / 2, 0)` does not wrap, yet
the computed bit is 1. -/
theorem c84_wrap_bit_half (h3 : 3 ≤ q) (hq : q < w) (d : Deal w) (hd : d.c0 + d.c1 = d.a * d.b) :
    (wrapBit q d (prime w q >>> 1) 0#w).1 + (wrapBit q d (prime w q >>> 1) 0#w).2 = 1#w := by
  simp only [wrapBit]
  have hm := c84_mul_priv d hd (if prime w q >>> 1 < prime w q >>> 1 then 1#w else 0#w) (if 0#w < prime w q >>> 1 then 1#w else 0#w)
  set z := mulPriv d (if prime w q >>> 1 < prime w q >>> 1 then 1#w else 0#w) (if 0#w < prime w q >>> 1 then 1#w else 0#w)
  have e : 1#w - z.1 + -z.2 = 1#w - (z.1 + z.2) := by ring
  rw [e, hm, if_neg (by rw [BitVec.lt_def]; omega)]
  simp

/-! ### Field share to ring share -/

theorem prime_shift_toNat (hq : q < w) (n : ℕ) (hn : n ≤ q) : (prime w q >>> n).toNat = 2 ^ (q - n) - 1 := by
  rw [BitVec.toNat_ushiftRight, prime_toNat hq, Nat.shiftRight_eq_div_pow]
  have e : 2 ^ q = 2 ^ n * 2 ^ (q - n) := by rw [← pow_add]; congr 1; omega
  have h1 := Nat.two_pow_pos n
  have h2 := Nat.two_pow_pos (q - n)
  rw [e]
  obtain ⟨m, hm⟩ : ∃ m, 2 ^ (q - n) = m + 1 := ⟨2 ^ (q - n) - 1, by omega⟩
  rw [hm, Nat.mul_add, Nat.mul_one]
  rw [show 2 ^ n * m + 2 ^ n - 1 = (2 ^ n - 1) + 2 ^ n * m by omega, Nat.add_mul_div_left _ _ h1, Nat.div_eq_of_lt (by omega)]
  omega

/-- C84: `ConvMP` truncates with an error of at most one unit. -/
theorem c84_conv_mp (h3 : 3 ≤ q) (hq : q < w) (n : ℕ) (hn : n ≤ q) (d : Deal w) (hd : d.c0 + d.c1 = d.a * d.b) (h0 h1 : BitVec w)
    (l0 : h0.toNat < 2 ^ q - 1) (l1 : h1.toNat < 2 ^ q - 1) (hh : (h0.toNat + h1.toNat) % (2 ^ q - 1) < (2 ^ q - 2) / 2) :
    ∃ x0 x1, convMP q n d h0 h1 = some (x0, x1) ∧ ∃ v : ℤ, x0 + x1 = BitVec.ofInt w v ∧
      |v - (((h0.toNat + h1.toNat) % (2 ^ q - 1) / 2 ^ n : ℕ) : ℤ)| ≤ 1 := by
  have hp8 : 2 ^ 3 ≤ 2 ^ q := Nat.pow_le_pow_right (by omega) h3
  refine ⟨_, _, by rw [convMP, if_neg (by omega)], ?_⟩
  have hw := c84_wrap_bit h3 hq d hd h0 h1 l0 l1 hh
  set u := wrapBit q d h0 h1
  have e : h0 >>> n - prime w q >>> n * u.1 + (h1 >>> n - prime w q >>> n * u.2) =
      h0 >>> n + h1 >>> n - prime w q >>> n * (u.1 + u.2) := by ring
  have s0 : h0 >>> n = BitVec.ofInt w ((h0.toNat / 2 ^ n : ℕ) : ℤ) := by
    rw [BitVec.ofInt_natCast]
    apply BitVec.eq_of_toNat_eq
    rw [BitVec.toNat_ushiftRight, Nat.shiftRight_eq_div_pow, BitVec.toNat_ofNat, Nat.mod_eq_of_lt]
    exact lt_of_le_of_lt (Nat.div_le_self _ _) h0.isLt
  have s1 : h1 >>> n = BitVec.ofInt w ((h1.toNat / 2 ^ n : ℕ) : ℤ) := by
    rw [BitVec.ofInt_natCast]
    apply BitVec.eq_of_toNat_eq
    rw [BitVec.toNat_ushiftRight, Nat.shiftRight_eq_div_pow, BitVec.toNat_ofNat, Nat.mod_eq_of_lt]
    exact lt_of_le_of_lt (Nat.div_le_self _ _) h1.isLt
  have s2 : prime w q >>> n = BitVec.ofInt w ((2 ^ (q - n) - 1 : ℕ) : ℤ) := by
    rw [BitVec.ofInt_natCast]
    apply BitVec.eq_of_toNat_eq
    rw [prime_shift_toNat hq n hn, BitVec.toNat_ofNat, Nat.mod_eq_of_lt]
    have : 2 ^ (q - n) ≤ 2 ^ w := Nat.pow_le_pow_right (by omega) (by omega)
    have := Nat.two_pow_pos (q - n)
    omega
  have hN := Nat.two_pow_pos n
  have ek : 2 ^ q = 2 ^ n * 2 ^ (q - n) := by rw [← pow_add]; congr 1; omega
  have hK := Nat.two_pow_pos (q - n)
  have d0 := Nat.div_add_mod h0.toNat (2 ^ n)
  have d1 := Nat.div_add_mod h1.toNat (2 ^ n)
  have m0 := Nat.mod_lt h0.toNat hN
  have m1 := Nat.mod_lt h1.toNat hN
  have dh := Nat.div_add_mod ((h0.toNat + h1.toNat) % (2 ^ q - 1)) (2 ^ n)
  have mh := Nat.mod_lt ((h0.toNat + h1.toNat) % (2 ^ q - 1)) hN
  by_cases hwr : 2 ^ q - 1 ≤ h0.toNat + h1.toNat
  · rw [if_pos hwr] at hw
    refine ⟨((h0.toNat / 2 ^ n : ℕ) : ℤ) + ((h1.toNat / 2 ^ n : ℕ) : ℤ) - ((2 ^ (q - n) - 1 : ℕ) : ℤ), ?_, ?_⟩
    · rw [e, hw, show ∀ z : BitVec w, z * 1#w = z from fun z => by simp, s0, s1, s2]
      simp only [sub_eq_add_neg, BitVec.ofInt_add, BitVec.ofInt_neg]
    · have hmod : (h0.toNat + h1.toNat) % (2 ^ q - 1) = h0.toNat + h1.toNat - (2 ^ q - 1) := by
        rw [Nat.mod_eq_sub_mod hwr, Nat.mod_eq_of_lt (by omega)]
      rw [hmod] at dh mh ⊢
      generalize h0.toNat / 2 ^ n = A at *
      generalize h1.toNat / 2 ^ n = B at *
      generalize (h0.toNat + h1.toNat - (2 ^ q - 1)) / 2 ^ n = C at *
      generalize h0.toNat % 2 ^ n = a at *
      generalize h1.toNat % 2 ^ n = b at *
      generalize (h0.toNat + h1.toNat - (2 ^ q - 1)) % 2 ^ n = c at *
      generalize 2 ^ (q - n) = K at *
      generalize 2 ^ n = N at *
      have hc : (N : ℤ) * C + c = (N * A + a) + (N * B + b) - (N * K - 1) := by
        have : ((N * C + c : ℕ) : ℤ) = ((N * A + a : ℕ) : ℤ) + ((N * B + b : ℕ) : ℤ) - ((N * K : ℕ) - 1) := by
          rw [dh, d0, d1]; omega
        push_cast at this; linarith
      have hN' : (0 : ℤ) < N := by exact_mod_cast hN
      have hb : |(N : ℤ) * (A + B + 1 - K - C)| < 2 * N := by
        have : (N : ℤ) * (A + B + 1 - K - C) = N + c - a - b - 1 := by linear_combination -hc
        rw [this, abs_lt]
        constructor <;> omega
      rw [abs_mul, abs_of_pos hN', mul_comm] at hb
      have hb2 := lt_of_mul_lt_mul_right hb hN'.le
      rw [Nat.cast_sub hK]
      have e3 : (A : ℤ) + B - ((K : ℤ) - (1 : ℕ)) - C = A + B + 1 - K - C := by push_cast; ring
      rw [e3]
      omega
  · rw [if_neg hwr] at hw
    refine ⟨((h0.toNat / 2 ^ n : ℕ) : ℤ) + ((h1.toNat / 2 ^ n : ℕ) : ℤ), ?_, ?_⟩
    · rw [e, hw, show ∀ z : BitVec w, z * 0#w = 0#w from fun z => by simp, s0, s1]
      simp only [BitVec.ofInt_add, BitVec.sub_zero]
    · have hmod : (h0.toNat + h1.toNat) % (2 ^ q - 1) = h0.toNat + h1.toNat := Nat.mod_eq_of_lt (by omega)
      rw [hmod] at dh mh ⊢
      generalize h0.toNat / 2 ^ n = A at *
      generalize h1.toNat / 2 ^ n = B at *
      generalize (h0.toNat + h1.toNat) / 2 ^ n = C at *
      generalize h0.toNat % 2 ^ n = a at *
      generalize h1.toNat % 2 ^ n = b at *
      generalize (h0.toNat + h1.toNat) % 2 ^ n = c at *
      generalize 2 ^ n = N at *
      have hc : (N : ℤ) * C + c = (N * A + a) + (N * B + b) := by
        have : ((N * C + c : ℕ) : ℤ) = ((N * A + a : ℕ) : ℤ) + ((N * B + b : ℕ) : ℤ) := by
          rw [dh, d0, d1]; omega
        push_cast at this; linarith
      have hN' : (0 : ℤ) < N := by exact_mod_cast hN
      have hb : |(N : ℤ) * (A + B - C)| < 2 * N := by
        have : (N : ℤ) * (A + B - C) = c - a - b := by linear_combination -hc
        rw [this, abs_lt]
        constructor <;> omega
      rw [abs_mul, abs_of_pos hN', mul_comm] at hb
      have hb2 := lt_of_mul_lt_mul_right hb hN'.le
      omega

end Spu.Props.ExpPrime

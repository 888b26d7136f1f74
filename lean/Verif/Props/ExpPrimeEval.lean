import Verif.Props.ExpPrimeMul

set_option autoImplicit false

/-! # C84: the whole exponentiation -/

namespace Spu.Props.ExpPrime
open Spu.Model.Gfmp Spu.Model.ExpPrime Spu.Spec.ExpPrime

variable {w q : ℕ}

/-- integer part of the scaled share of a party -/
def ipart (c : Cfg w) (rank : ℕ) (x : BitVec w) : ℤ := (scaled c rank x).toInt / 2 ^ (c.kExp + c.fxp)

/-- fractional part of the scaled share of a party -/
def fpart (c : Cfg w) (rank : ℕ) (x : BitVec w) : BitVec w := scaled c rank x &&& ((1#w <<< (c.kExp + c.fxp)) - 1#w)

theorem and_mask_toNat {t : ℕ} (ht : t < w) (x : BitVec w) : (x &&& ((1#w <<< t) - 1#w)).toNat = x.toNat % 2 ^ t := by
  have h1 : 2 ^ t < 2 ^ w := Nat.pow_lt_pow_right (by omega) ht
  have h2 : 1 ≤ 2 ^ t := Nat.one_le_two_pow
  have hw : (1#w).toNat = 1 := by rw [BitVec.toNat_ofNat, Nat.mod_eq_of_lt]; omega
  have h3 : (1#w <<< t).toNat = 2 ^ t := by
    rw [BitVec.toNat_shiftLeft, Nat.shiftLeft_eq, hw, one_mul, Nat.mod_eq_of_lt h1]
  have h4 : ((1#w <<< t) - 1#w).toNat = 2 ^ t - 1 := by
    rw [BitVec.toNat_sub, h3, hw, show 2 ^ w - 1 + 2 ^ t = (2 ^ t - 1) + 2 ^ w by omega, Nat.add_mod_right, Nat.mod_eq_of_lt (by omega)]
  rw [BitVec.toNat_and, h4, Nat.and_two_pow_sub_one_eq_mod]

theorem toNat_mod_eq {t : ℕ} (ht : t ≤ w) (x : BitVec w) : ((x.toNat % 2 ^ t : ℕ) : ℤ) = x.toInt % 2 ^ t := by
  rw [BitVec.toInt_eq_toNat_bmod]
  push_cast
  rw [← Int.emod_emod_of_dvd ((x.toNat : ℤ).bmod (2 ^ w)) (show (2 : ℤ) ^ t ∣ 2 ^ w from pow_dvd_pow 2 ht)]
  have : ((2 : ℤ) ^ w) = ((2 ^ w : ℕ) : ℤ) := by push_cast; rfl
  rw [this, Int.bmod_emod, Int.emod_emod_of_dvd]
  rw [← this]
  exact pow_dvd_pow 2 ht

theorem fpart_lt (c : Cfg w) (ht : c.kExp + c.fxp < w) (rank : ℕ) (x : BitVec w) : (fpart c rank x).toNat < 2 ^ (c.kExp + c.fxp) := by
  rw [fpart, and_mask_toNat ht]
  exact Nat.mod_lt _ (Nat.two_pow_pos _)

/-- integer and fractional part make up the share -/
theorem split_share (c : Cfg w) (ht : c.kExp + c.fxp < w) (rank : ℕ) (x : BitVec w) :
    (scaled c rank x).toInt = 2 ^ (c.kExp + c.fxp) * ipart c rank x + (fpart c rank x).toNat := by
  rw [fpart, and_mask_toNat ht, toNat_mod_eq ht.le, ipart]
  exact (Int.mul_ediv_add_emod _ _).symm

theorem ashift_toInt (x : BitVec w) (t : ℕ) : (x.sshiftRight t).toInt = x.toInt / 2 ^ t := by
  rw [BitVec.toInt_sshiftRight, Int.shiftRight_eq_div_pow]
  push_cast; rfl

theorem ipart_bound (c : Cfg w) (ht : c.kExp + c.fxp < w) (rank : ℕ) (x : BitVec w) :
    -2 ^ (w - c.fxp - 1) ≤ ipart c rank x ∧ ipart c rank x < 2 ^ (w - c.fxp - 1) := by
  have h1 := BitVec.two_mul_toInt_lt (x := scaled c rank x)
  have h2 := BitVec.le_two_mul_toInt (x := scaled c rank x)
  set X := (scaled c rank x).toInt
  have e1 : (2 : ℤ) ^ w = 2 * (2 ^ (w - 1 - c.fxp) * 2 ^ c.fxp) := by
    rw [← pow_add, ← pow_succ']; congr 1; omega
  have e2 : (2 : ℤ) ^ (c.kExp + c.fxp) = 2 ^ c.kExp * 2 ^ c.fxp := pow_add _ _ _
  have e3 : w - c.fxp - 1 = w - 1 - c.fxp := by omega
  have hk : (1 : ℤ) ≤ 2 ^ c.kExp := one_le_pow₀ (by norm_num)
  have hf : (0 : ℤ) < 2 ^ c.fxp := by positivity
  have hm : (0 : ℤ) < 2 ^ (w - 1 - c.fxp) := by positivity
  rw [e3]
  unfold ipart
  constructor
  · apply Int.le_ediv_of_mul_le (by positivity)
    rw [e2]
    have : (2 : ℤ) ^ (w - 1 - c.fxp) * 2 ^ c.fxp ≤ 2 ^ (w - 1 - c.fxp) * (2 ^ c.kExp * 2 ^ c.fxp) := by
      apply mul_le_mul_of_nonneg_left _ hm.le
      nlinarith
    linarith
  · apply Int.ediv_lt_of_lt_mul (by positivity)
    rw [e2]
    have : (2 : ℤ) ^ (w - 1 - c.fxp) * 2 ^ c.fxp ≤ 2 ^ (w - 1 - c.fxp) * (2 ^ c.kExp * 2 ^ c.fxp) := by
      apply mul_le_mul_of_nonneg_left _ hm.le
      nlinarith
    linarith

theorem oneNegative_shift (x y : BitVec w) (t : ℕ) : OneNegative (x.sshiftRight t) (y.sshiftRight t) ↔ OneNegative x y := by
  unfold OneNegative
  rw [ashift_toInt, ashift_toInt]
  have hp : (0 : ℤ) < 2 ^ t := by positivity
  have h : ∀ z : ℤ, z / 2 ^ t < 0 ↔ z < 0 := fun z => by
    constructor
    · intro h
      by_contra hn
      have h0 : 0 ≤ z := by omega
      have := Int.ediv_nonneg h0 hp.le
      omega
    · intro h; exact Int.ediv_neg_of_neg_of_pos h hp
  have h' : ∀ z : ℤ, 0 ≤ z / 2 ^ t ↔ 0 ≤ z := fun z => by
    have := h z
    constructor <;> intro _ <;> omega
  rw [h, h, h', h']

/-- the exact product shared by the two parties, for multiples of `2^e` -/
def prodZ (c : Cfg w) (F : BitVec w → BitVec w) (e : ℕ) (x0 x1 : BitVec w) : ℕ :=
  (F (fpart c 0 x0)).toNat / 2 ^ e * ((F (fpart c 1 x1)).toNat / 2 ^ e) * 2 ^ (ipart c 0 x0 + ipart c 1 x1 + 2 * e).toNat

/-- C84, over the integers: if exactly one scaled share is negative and the product is below `(p - 1) / 2`, the outputs
are shares of the product divided by `2^(offset + fxp)`, up to one unit. -/
theorem c84_exp_int {mul : BitVec w → BitVec w → BitVec w × BitVec w} (hmul : MulOk mul) (hprime : (2 ^ q - 1).Prime)
    (h3 : 3 ≤ q) (hq : q < w) (hw : w ≤ 128) (c : Cfg w) (F : BitVec w → BitVec w) (e : ℕ)
    (hf64 : c.fxp < 64) (ht : c.kExp + c.fxp < w) (hs : w < q + c.fxp)
    (hFm : ∀ f : BitVec w, f.toNat < 2 ^ (c.kExp + c.fxp) → 2 ^ e ∣ (F f).toNat)
    (hFl : ∀ f : BitVec w, f.toNat < 2 ^ (c.kExp + c.fxp) → (F f).toNat ≤ 2 ^ q - 1)
    (dp dr : Deal w) (hdp : DealOk q dp) (hdr : dr.c0 + dr.c1 = dr.a * dr.b) (hn : c.offset + c.fxp ≤ q)
    (x0 x1 : BitVec w) (hone : OneNegative (scaled c 0 x0) (scaled c 1 x1))
    (ha : 0 ≤ ipart c 0 x0 + ipart c 1 x1 + 2 * e) (hZ : prodZ c F e x0 x1 < (2 ^ q - 2) / 2) :
    ∃ o0 o1, expA mul q c F dp dr x0 x1 = some (o0, o1) ∧ ∃ v : ℤ, o0 + o1 = BitVec.ofInt w v ∧
      |v - ((prodZ c F e x0 x1 / 2 ^ (c.offset + c.fxp) : ℕ) : ℤ)| ≤ 1 := by
  have : Fact (2 ^ q - 1).Prime := ⟨hprime⟩
  have hp8 : 2 ^ 3 ≤ 2 ^ q := Nat.pow_le_pow_right (by omega) h3
  have h2w : 2 ^ q < 2 ^ w := Nat.pow_lt_pow_right (by omega) hq
  have b0 := ipart_bound c ht 0 x0
  have b1 := ipart_bound c ht 1 x1
  obtain ⟨h0, h1, e0, e1, l0, l1, hiff⟩ := c84_prob_conv (q := q) (shr := w - c.fxp) h3 (by omega) (by omega) hq hw
    ((scaled c 0 x0).sshiftRight (c.kExp + c.fxp)) ((scaled c 1 x1).sshiftRight (c.kExp + c.fxp))
    (by rw [ashift_toInt]; exact b0.1) (by rw [ashift_toInt]; exact b0.2) (by rw [ashift_toInt]; exact b1.1)
    (by rw [ashift_toInt]; exact b1.2)
  have hmodeq := hiff.2 ((oneNegative_shift _ _ _).2 hone)
  rw [ashift_toInt, ashift_toInt] at hmodeq
  have two : (2#w).toNat = 2 := by rw [BitVec.toNat_ofNat, Nat.mod_eq_of_lt]; omega
  have y0 := c38_exp (k := q) hmul (by omega) hq 2#w h0 (by omega)
  have y1 := c38_exp (k := q) hmul (by omega) hq 2#w h1 (by omega)
  rw [two] at y0 y1
  have f0 := fpart_lt c ht 0 x0
  have f1 := fpart_lt c ht 1 x1
  have hy0 : (expMod mul q 2#w h0).toNat < 2 ^ q - 1 := by rw [y0]; exact Nat.mod_lt _ (by omega)
  have hy1 : (expMod mul q 2#w h1).toNat < 2 ^ q - 1 := by rw [y1]; exact Nat.mod_lt _ (by omega)
  obtain ⟨lz0, vz0⟩ := mul_z hmul h3 hq _ (F (fpart c 0 x0)) hy0.le (hFl _ f0)
  obtain ⟨lz1, vz1⟩ := mul_z hmul h3 hq _ (F (fpart c 1 x1)) hy1.le (hFl _ f1)
  set z0 := mulMod mul q (expMod mul q 2#w h0) (F (fpart c 0 x0)) with hz0
  set z1 := mulMod mul q (expMod mul q 2#w h1) (F (fpart c 1 x1)) with hz1
  have E0 : expLocal mul q c F 0 x0 = some z0 := by
    unfold expLocal
    simp only [if_neg (show ¬ 64 ≤ c.fxp by omega), if_neg (show ¬ w ≤ c.kExp + c.fxp by omega), e0]
    rfl
  have E1 : expLocal mul q c F 1 x1 = some z1 := by
    unfold expLocal
    simp only [if_neg (show ¬ 64 ≤ c.fxp by omega), if_neg (show ¬ w ≤ c.kExp + c.fxp by omega), e1]
    rfl
  obtain ⟨lm0, lm1, hm⟩ := c84_mul_priv_mp hmul h3 hq dp hdp z0 z1 lz0 lz1
  set m := mulPrivMP mul q dp z0 z1
  -- the product in the field
  have hne : (2 : ZMod (2 ^ q - 1)) ≠ 0 := by
    intro h
    have : ((2 : ℕ) : ZMod (2 ^ q - 1)) = 0 := by exact_mod_cast h
    rw [ZMod.natCast_eq_zero_iff] at this
    have := Nat.le_of_dvd (by norm_num) this
    omega
  have hpow : (2 : ZMod (2 ^ q - 1)) ^ ((h0.toNat : ℤ) + h1.toNat) = 2 ^ (ipart c 0 x0 + ipart c 1 x1) := by
    obtain ⟨k, hk⟩ := hmodeq.dvd
    have hk' : ipart c 0 x0 + ipart c 1 x1 = ((h0.toNat : ℤ) + h1.toNat) + ((2 ^ q - 2 : ℕ) : ℤ) * k := by
      unfold ipart; linarith
    rw [hk', zpow_add₀ hne _ (((2 ^ q - 2 : ℕ) : ℤ) * k), zpow_mul, zpow_natCast]
    have : (2 : ZMod (2 ^ q - 1)) ^ (2 ^ q - 2) = 1 := by
      have := ZMod.pow_card_sub_one_eq_one hne
      rwa [show 2 ^ q - 1 - 1 = 2 ^ q - 2 by omega] at this
    rw [this, one_zpow, mul_one]
  obtain ⟨g0, hg0⟩ := hFm _ f0
  obtain ⟨g1, hg1⟩ := hFm _ f1
  have hprod : (z0.toNat * z1.toNat) % (2 ^ q - 1) = prodZ c F e x0 x1 := by
    rw [← Nat.mod_eq_of_lt (show prodZ c F e x0 x1 < 2 ^ q - 1 by omega)]
    apply (ZMod.natCast_eq_natCast_iff _ _ _).1
    push_cast
    rw [vz0, vz1, y0, y1, ZMod.natCast_mod, ZMod.natCast_mod]
    unfold prodZ
    rw [hg0, hg1, Nat.mul_div_cancel_left _ (Nat.two_pow_pos e), Nat.mul_div_cancel_left _ (Nat.two_pow_pos e)]
    push_cast
    have t1 : (2 : ZMod (2 ^ q - 1)) ^ (ipart c 0 x0 + ipart c 1 x1 + 2 * e).toNat = 2 ^ (ipart c 0 x0 + ipart c 1 x1) * (2 ^ e * 2 ^ e) := by
      rw [← zpow_natCast, Int.toNat_of_nonneg ha, zpow_add₀ hne, ← pow_add, ← zpow_natCast (2 : ZMod (2 ^ q - 1)) (e + e)]
      congr 2
      push_cast
      ring
    have t2 : (2 : ZMod (2 ^ q - 1)) ^ h0.toNat * 2 ^ h1.toNat = 2 ^ (ipart c 0 x0 + ipart c 1 x1) := by
      rw [← hpow, zpow_add₀ hne, zpow_natCast, zpow_natCast]
    rw [t1, ← t2]
    ring
  rw [hprod] at hm
  obtain ⟨o0, o1, ho, v, hv, hb⟩ := c84_conv_mp h3 hq (c.offset + c.fxp) hn dr hdr m.1 m.2 lm0 lm1 (by rw [hm]; exact hZ)
  refine ⟨o0, o1, ?_, v, hv, by rw [hm] at hb; exact hb⟩
  unfold expA
  rw [E0, E1]
  exact ho

/-! ### Over the reals -/

/-- the scaled shares add up to the scaled input plus the offset -/
theorem scaled_sum (c : Cfg w) (x0 x1 : BitVec w) :
    scaled c 0 x0 + scaled c 1 x1 = (x0 + x1) * c.scale + (BitVec.ofNat w c.offset <<< (c.kExp + c.fxp)) := by
  simp only [scaled, if_true]
  rw [if_neg (by omega)]
  ring

/-- without a wrap-around the signed scaled shares add up as integers -/
theorem scaled_toInt_sum (c : Cfg w) (hw : 1 ≤ w) (x0 x1 : BitVec w) (hone : OneNegative (scaled c 0 x0) (scaled c 1 x1))
    (hlo : -2 ^ (w - 1) ≤ (x0 + x1).toInt * c.scale.toInt + c.offset * 2 ^ (c.kExp + c.fxp))
    (hhi : (x0 + x1).toInt * c.scale.toInt + c.offset * 2 ^ (c.kExp + c.fxp) < 2 ^ (w - 1)) :
    (scaled c 0 x0).toInt + (scaled c 1 x1).toInt = (x0 + x1).toInt * c.scale.toInt + c.offset * 2 ^ (c.kExp + c.fxp) := by
  have e2 : (2 : ℤ) ^ w = 2 * 2 ^ (w - 1) := by rw [← pow_succ']; congr 1; omega
  have l0 := BitVec.two_mul_toInt_lt (x := scaled c 0 x0)
  have l0' := BitVec.le_two_mul_toInt (x := scaled c 0 x0)
  have l1 := BitVec.two_mul_toInt_lt (x := scaled c 1 x1)
  have l1' := BitVec.le_two_mul_toInt (x := scaled c 1 x1)
  have hb : BitVec.ofInt w ((scaled c 0 x0).toInt + (scaled c 1 x1).toInt) =
      BitVec.ofInt w ((x0 + x1).toInt * c.scale.toInt + c.offset * 2 ^ (c.kExp + c.fxp)) := by
    rw [BitVec.ofInt_add, BitVec.ofInt_toInt, BitVec.ofInt_toInt, scaled_sum, BitVec.ofInt_add, BitVec.ofInt_mul, BitVec.ofInt_toInt,
      BitVec.ofInt_toInt]
    congr 1
    apply BitVec.eq_of_toNat_eq
    rw [show ((c.offset : ℤ) * 2 ^ (c.kExp + c.fxp)) = ((c.offset * 2 ^ (c.kExp + c.fxp) : ℕ) : ℤ) by push_cast; rfl,
      BitVec.ofInt_natCast, BitVec.toNat_shiftLeft, BitVec.toNat_ofNat, BitVec.toNat_ofNat, Nat.shiftLeft_eq, Nat.mod_mul_mod]
  have h := congrArg BitVec.toInt hb
  rw [BitVec.toInt_ofInt, BitVec.toInt_ofInt] at h
  have small : ∀ z : ℤ, -2 ^ (w - 1) ≤ z → z < 2 ^ (w - 1) → z.bmod (2 ^ w) = z := by
    intro z h1 h2
    apply Int.bmod_eq_of_le_mul_two
    · push_cast; rw [e2]; linarith
    · push_cast; rw [e2]; linarith
  rw [small _ hlo hhi, small] at h
  · exact h
  · rcases hone with ⟨h1, h2⟩ | ⟨h1, h2⟩ <;> linarith
  · rcases hone with ⟨h1, h2⟩ | ⟨h1, h2⟩ <;> linarith

end Spu.Props.ExpPrime

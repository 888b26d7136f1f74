import Verif.Model.Gfmp
import Mathlib.Data.Nat.Bitwise
import Mathlib.Data.ZMod.Basic
import Mathlib.NumberTheory.LucasLehmer
import Mathlib.Tactic.Ring
import Mathlib.Tactic.Linarith
import Mathlib.Tactic.LinearCombination

set_option autoImplicit false

/-! # C38: Mersenne-prime field arithmetic -/

namespace Spu.Props
open Spu.Model.Gfmp

variable {W k : ℕ}

/-- `mul` returns the low and the high word of the product. -/
def MulOk (mul : BitVec W → BitVec W → BitVec W × BitVec W) : Prop :=
  ∀ x y, mul x y = (BitVec.ofNat W (x.toNat * y.toNat), BitVec.ofNat W (x.toNat * y.toNat / 2 ^ W))

theorem prime_toNat (hk : k < W) : (prime W k).toNat = 2 ^ k - 1 := by
  have h1 : (1 : BitVec W) = 1#W := rfl
  have hp : 2 ^ k < 2 ^ W := Nat.pow_lt_pow_right (by omega) hk
  have hp1 : 1 ≤ 2 ^ k := Nat.one_le_two_pow
  have hw1 : 1 < 2 ^ W := by omega
  rw [prime, h1, BitVec.toNat_sub, BitVec.toNat_shiftLeft, BitVec.toNat_ofNat, Nat.mod_eq_of_lt hw1,
    Nat.shiftLeft_eq, Nat.one_mul, Nat.mod_eq_of_lt hp,
    show 2 ^ W - 1 + 2 ^ k = (2 ^ k - 1) + 2 ^ W by omega, Nat.add_mod_right, Nat.mod_eq_of_lt (by omega)]

/-- the multiplication through the double-width type -/
theorem mulNarrow_ok : MulOk (mulNarrow (W := W)) := by
  intro x y
  have hx := x.isLt
  have hy := y.isLt
  have hlt : x.toNat * y.toNat < 2 ^ (W + W) := by
    rw [Nat.pow_add]; exact Nat.mul_lt_mul'' hx hy
  have hx' : x.toNat % 2 ^ (W + W) = x.toNat := Nat.mod_eq_of_lt (by rw [Nat.pow_add]; nlinarith [Nat.one_le_two_pow (n := W)])
  have hy' : y.toNat % 2 ^ (W + W) = y.toNat := Nat.mod_eq_of_lt (by rw [Nat.pow_add]; nlinarith [Nat.one_le_two_pow (n := W)])
  unfold mulNarrow
  refine Prod.ext ?_ ?_
  · apply BitVec.eq_of_toNat_eq
    simp [BitVec.toNat_mul, hx', hy', Nat.mod_eq_of_lt hlt]
  · apply BitVec.eq_of_toNat_eq
    simp [BitVec.toNat_mul, hx', hy', Nat.mod_eq_of_lt hlt, Nat.shiftRight_eq_div_pow]

/-- the schoolbook multiplication of 128-bit words -/
theorem mulWide_ok {h : ℕ} : MulOk (mulWide (h := h)) := by
  intro x y
  set H := 2 ^ h with hH
  have hM : 2 ^ (h + h) = H * H := Nat.pow_add 2 h h
  have hHpos : 0 < H := Nat.two_pow_pos h
  have hx := x.isLt
  have hy := y.isLt
  rw [hM] at hx hy
  set a := x.toNat % H with ha
  set b := x.toNat / H with hb
  set c := y.toNat % H with hc
  set d := y.toNat / H with hd
  have haH : a < H := Nat.mod_lt _ hHpos
  have hcH : c < H := Nat.mod_lt _ hHpos
  have hbH : b < H := (Nat.div_lt_iff_lt_mul hHpos).2 hx
  have hdH : d < H := (Nat.div_lt_iff_lt_mul hHpos).2 hy
  have hxe : x.toNat = H * b + a := (Nat.div_add_mod _ _).symm
  have hye : y.toNat = H * d + c := (Nat.div_add_mod _ _).symm
  have small : ∀ {u v : ℕ}, u < H → v < H → u * v < H * H := fun hu hv => Nat.mul_lt_mul'' hu hv
  have lt2 : ∀ {u : ℕ}, u < H → u % (H * H) = u := fun hu => Nat.mod_eq_of_lt (by nlinarith)
  have xLo : (x.setWidth h).toNat = a := by simp [ha, hH]
  have yLo : (y.setWidth h).toNat = c := by simp [hc, hH]
  have xHi : ((x >>> h).setWidth h).toNat = b := by
    rw [BitVec.toNat_setWidth, BitVec.toNat_ushiftRight, Nat.shiftRight_eq_div_pow, ← hH, ← hb, Nat.mod_eq_of_lt hbH]
  have yHi : ((y >>> h).setWidth h).toNat = d := by
    rw [BitVec.toNat_setWidth, BitVec.toNat_ushiftRight, Nat.shiftRight_eq_div_pow, ← hH, ← hd, Nat.mod_eq_of_lt hdH]
  have prod : ∀ u v : BitVec h, (u.setWidth (h + h) * v.setWidth (h + h)).toNat = u.toNat * v.toNat := by
    intro u v
    rw [BitVec.toNat_mul, BitVec.toNat_setWidth, BitVec.toNat_setWidth, hM, lt2 u.isLt, lt2 v.isLt,
      Nat.mod_eq_of_lt (small u.isLt v.isLt)]
  unfold mulWide
  simp only
  set XL := (x.setWidth h)
  set XH := ((x >>> h).setWidth h)
  set YL := (y.setWidth h)
  set YH := ((y >>> h).setWidth h)
  set lo := XL.setWidth (h + h) * YL.setWidth (h + h) with hlo
  set p1 := XL.setWidth (h + h) * YH.setWidth (h + h) with hp1
  set p2 := XH.setWidth (h + h) * YL.setWidth (h + h) with hp2
  set p3 := XH.setWidth (h + h) * YH.setWidth (h + h) with hp3
  have elo : lo.toNat = a * c := by rw [hlo, prod, xLo, yLo]
  have e1 : p1.toNat = a * d := by rw [hp1, prod, xLo, yHi]
  have e2 : p2.toNat = b * c := by rw [hp2, prod, xHi, yLo]
  have e3 : p3.toNat = b * d := by rw [hp3, prod, xHi, yHi]
  have shl : ∀ u : BitVec (h + h), (u <<< h).toNat = u.toNat % H * H := by
    intro u
    rw [BitVec.toNat_shiftLeft, Nat.shiftLeft_eq, hM, ← hH, Nat.mul_mod_mul_right]
  have shr : ∀ u : BitVec (h + h), (u >>> h).toNat = u.toNat / H := by
    intro u; rw [BitVec.toNat_ushiftRight, Nat.shiftRight_eq_div_pow]
  -- adding and detecting the carry
  have carry : ∀ u v : BitVec (h + h), ∃ q, q ≤ 1 ∧ (if u + v < v then (1 : BitVec (h + h)) else 0) = BitVec.ofNat _ q ∧
      u.toNat + v.toNat = (u + v).toNat + q * (H * H) := by
    intro u v
    have hu := u.isLt
    have hv := v.isLt
    rw [hM] at hu hv
    have hadd : (u + v).toNat = (u.toNat + v.toNat) % (H * H) := by rw [BitVec.toNat_add, hM]
    by_cases hc : u.toNat + v.toNat < H * H
    · refine ⟨0, by omega, ?_, ?_⟩
      · rw [if_neg]
        · rfl
        · rw [BitVec.lt_def, hadd, Nat.mod_eq_of_lt hc]; omega
      · rw [hadd, Nat.mod_eq_of_lt hc]; omega
    · have hm : (u.toNat + v.toNat) % (H * H) = u.toNat + v.toNat - H * H := by
        rw [Nat.mod_eq_sub_mod (by omega), Nat.mod_eq_of_lt (by omega)]
      refine ⟨1, le_refl _, ?_, ?_⟩
      · rw [if_pos]
        · rfl
        · rw [BitVec.lt_def, hadd, hm]; omega
      · rw [hadd, hm]; omega
  obtain ⟨q1, hq1, hc1, hs1⟩ := carry lo (p1 <<< h)
  obtain ⟨q2, hq2, hc2, hs2⟩ := carry (lo + p1 <<< h) (p2 <<< h)
  set lo1 := lo + p1 <<< h
  set lo2 := lo1 + p2 <<< h
  rw [hc1, hc2]
  rw [shl, e1, elo] at hs1
  rw [shl, e2] at hs2
  have hlo2 : lo2.toNat < H * H := by rw [← hM]; exact lo2.isLt
  set hi := q1 + q2 + b * d + a * d / H + b * c / H with hhi
  have total : x.toNat * y.toNat = lo2.toNat + hi * (H * H) := by
    have d1 := Nat.div_add_mod (a * d) H
    have d2 := Nat.div_add_mod (b * c) H
    rw [hxe, hye, hhi]
    set u1 := a * d / H
    set v1 := a * d % H
    set u2 := b * c / H
    set v2 := b * c % H
    have : (H * b + a) * (H * d + c) = a * c + (a * d) * H + (b * c) * H + b * d * (H * H) := by ring
    rw [this, ← d1, ← d2]
    have : a * c + (H * u1 + v1) * H + (H * u2 + v2) * H + b * d * (H * H) =
      (a * c + v1 * H) + v2 * H + (u1 + u2 + b * d) * (H * H) := by ring
    rw [this, hs1]
    have : lo1.toNat + q1 * (H * H) + v2 * H + (u1 + u2 + b * d) * (H * H) =
      (lo1.toNat + v2 * H) + (q1 + (u1 + u2 + b * d)) * (H * H) := by ring
    rw [this, hs2]
    ring
  refine Prod.ext ?_ ?_
  · apply BitVec.eq_of_toNat_eq
    simp only
    rw [BitVec.toNat_ofNat, hM, total, Nat.add_mul_mod_self_right, Nat.mod_eq_of_lt hlo2]
  · simp only
    have hdiv : x.toNat * y.toNat / 2 ^ (h + h) = hi := by
      rw [hM, total, Nat.add_mul_div_right _ _ (by positivity), Nat.div_eq_of_lt hlo2]; omega
    rw [hdiv, hhi]
    have o1 : p1 >>> h = BitVec.ofNat _ (a * d / H) := by
      apply BitVec.eq_of_toNat_eq
      rw [shr, e1, BitVec.toNat_ofNat, Nat.mod_eq_of_lt]
      rw [hM]; exact lt_of_le_of_lt (Nat.div_le_self _ _) (small haH hdH)
    have o2 : p2 >>> h = BitVec.ofNat _ (b * c / H) := by
      apply BitVec.eq_of_toNat_eq
      rw [shr, e2, BitVec.toNat_ofNat, Nat.mod_eq_of_lt]
      rw [hM]; exact lt_of_le_of_lt (Nat.div_le_self _ _) (small hbH hcH)
    have o3 : p3 = BitVec.ofNat _ (b * d) := by
      apply BitVec.eq_of_toNat_eq
      rw [e3, BitVec.toNat_ofNat, Nat.mod_eq_of_lt]
      rw [hM]; exact small hbH hdH
    rw [o1, o2, o3]
    simp only [BitVec.ofNat_add]

/-! ## The field operations -/

theorem reduce_once {P A : ℕ} (h : A < 2 * P) (hk : k < W) (hP : P = 2 ^ k - 1) (r : BitVec W) (hr : r.toNat = A) :
    (if r ≥ prime W k then r - prime W k else r).toNat = A % P := by
  have hp := prime_toNat hk
  rw [← hP] at hp
  have hlt := r.isLt
  by_cases hc : P ≤ A
  · rw [if_pos (by rw [ge_iff_le, BitVec.le_def, hp, hr]; exact hc), BitVec.toNat_sub_of_le (by rw [BitVec.le_def, hp, hr]; exact hc),
      hr, hp, Nat.mod_eq_sub_mod hc, Nat.mod_eq_of_lt (by omega)]
  · rw [if_neg (by rw [ge_iff_le, BitVec.le_def, hp, hr]; exact hc), hr, Nat.mod_eq_of_lt (by omega)]

theorem add_halves_mod (q k : ℕ) : q % (2 ^ k - 1) = (q % 2 ^ k + q / 2 ^ k) % (2 ^ k - 1) := by
  have h := Nat.div_add_mod q (2 ^ k)
  have hp : 1 ≤ 2 ^ k := Nat.one_le_two_pow
  conv_lhs => rw [← h]
  have : 2 ^ k * (q / 2 ^ k) + q % 2 ^ k = (q % 2 ^ k + q / 2 ^ k) + (2 ^ k - 1) * (q / 2 ^ k) := by
    have : 2 ^ k * (q / 2 ^ k) = (2 ^ k - 1) * (q / 2 ^ k) + q / 2 ^ k := by
      rw [← Nat.succ_mul, Nat.succ_eq_add_one, Nat.sub_add_cancel hp]
    omega
  rw [this, Nat.add_mul_mod_self_left]

theorem and_prime (hk : k < W) (e : BitVec W) : (e &&& prime W k).toNat = e.toNat % 2 ^ k := by
  rw [BitVec.toNat_and, prime_toNat hk, Nat.and_two_pow_sub_one_eq_mod]

/-- C38: multiplication; the arguments may be `p` itself. -/
theorem c38_mul {mul : BitVec W → BitVec W → BitVec W × BitVec W} (hmul : MulOk mul) (hk0 : 0 < k) (hk : k < W)
    (x y : BitVec W) (hx : x.toNat ≤ 2 ^ k - 1) (hy : y.toNat ≤ 2 ^ k - 1) :
    (mulMod mul k x y).toNat = x.toNat * y.toNat % (2 ^ k - 1) := by
  set q := x.toNat * y.toNat with hq
  have hp : 2 ≤ 2 ^ k := by
    calc 2 = 2 ^ 1 := rfl
      _ ≤ 2 ^ k := Nat.pow_le_pow_right (by omega) hk0
  have hqle : q ≤ (2 ^ k - 1) * (2 ^ k - 1) := Nat.mul_le_mul hx hy
  have hB : q / 2 ^ k < 2 ^ k - 1 := by
    rw [Nat.div_lt_iff_lt_mul (by omega)]
    refine lt_of_le_of_lt hqle ?_
    exact Nat.mul_lt_mul_of_pos_left (by omega) (by omega)
  have hA : q % 2 ^ k < 2 ^ k := Nat.mod_lt _ (by omega)
  have hWk : 2 * 2 ^ k ≤ 2 ^ W := by
    rw [← Nat.pow_succ']; exact Nat.pow_le_pow_right (by omega) hk
  unfold mulMod
  simp only
  rw [hmul x y]
  simp only
  have hhi : (BitVec.ofNat W q >>> k) ^^^ (BitVec.ofNat W (q / 2 ^ W) <<< (W - k)) = BitVec.ofNat W (q / 2 ^ k) := by
    apply BitVec.eq_of_getLsbD_eq
    intro i hi
    rw [BitVec.getLsbD_xor, BitVec.getLsbD_ushiftRight, BitVec.getLsbD_shiftLeft, BitVec.getLsbD_ofNat, BitVec.getLsbD_ofNat,
      BitVec.getLsbD_ofNat, Nat.testBit_div_two_pow, Nat.testBit_div_two_pow]
    by_cases h : k + i < W
    · simp [h, hi, show i < W - k by omega, Nat.add_comm]
    · have e : i - (W - k) + W = i + k := by omega
      simp [h, hi, show ¬ i < W - k by omega, show i - (W - k) < W by omega, e]
  rw [hhi, add_halves_mod q k]
  refine reduce_once (P := 2 ^ k - 1) ?_ hk rfl _ ?_
  · omega
  · rw [BitVec.toNat_add, and_prime hk, BitVec.toNat_ofNat, BitVec.toNat_ofNat, Nat.mod_eq_of_lt (a := q / 2 ^ k) (by omega),
      Nat.mod_mod_of_dvd _ (Nat.pow_dvd_pow 2 hk.le), Nat.mod_eq_of_lt (by omega)]

/-- C38: addition. -/
theorem c38_add (hk : k < W) (x y : BitVec W) (h : x.toNat + y.toNat < 2 * (2 ^ k - 1)) :
    (addMod k x y).toNat = (x.toNat + y.toNat) % (2 ^ k - 1) := by
  have hWk : 2 * 2 ^ k ≤ 2 ^ W := by
    rw [← Nat.pow_succ']; exact Nat.pow_le_pow_right (by omega) hk
  exact reduce_once h hk rfl _ (by rw [BitVec.toNat_add, Nat.mod_eq_of_lt (by omega)])

theorem addInv_toNat (hk : k < W) (x : BitVec W) (hx : x.toNat ≤ 2 ^ k - 1) : (addInv k x).toNat = 2 ^ k - 1 - x.toNat := by
  have hp : 1 ≤ 2 ^ k := Nat.one_le_two_pow
  rw [addInv, BitVec.toNat_xor, prime_toNat hk]
  apply Nat.eq_of_testBit_eq
  intro i
  have h2 := Nat.testBit_two_pow_sub_succ (show x.toNat < 2 ^ k by omega) i
  rw [show 2 ^ k - 1 - x.toNat = 2 ^ k - (x.toNat + 1) by omega, h2, Nat.testBit_xor, Nat.testBit_two_pow_sub_one]
  by_cases h : i < k
  · simp [h]
  · have : x.toNat.testBit i = false := Nat.testBit_lt_two_pow (lt_of_lt_of_le (by omega) (Nat.pow_le_pow_right (by omega) (not_lt.1 h)))
    simp [h, this]

/-- C38: negation is right up to the representative: `-0` is `p`. -/
theorem c38_neg (hk : k < W) (x : BitVec W) (hx : x.toNat < 2 ^ k - 1) :
    (addInv k x).toNat = if x.toNat = 0 then 2 ^ k - 1 else (2 ^ k - 1 - x.toNat) % (2 ^ k - 1) := by
  rw [addInv_toNat hk x hx.le]
  split
  · rename_i h; rw [h]; rfl
  · rw [Nat.mod_eq_of_lt (by omega)]

/-- C38: the negation of zero is not canonical. -/
theorem c38_neg_zero (hk : k < W) : (addInv k (0 : BitVec W)).toNat = 2 ^ k - 1 := by
  rw [addInv_toNat hk]
  · show 2 ^ k - 1 - (BitVec.ofNat W 0).toNat = _
    simp
  · show (BitVec.ofNat W 0).toNat ≤ _
    simp

/-- C38: subtraction is canonical. -/
theorem c38_sub (hk : k < W) (x y : BitVec W) (hx : x.toNat < 2 ^ k - 1) (hy : y.toNat < 2 ^ k - 1) :
    (subMod k x y).toNat = (x.toNat + (2 ^ k - 1 - y.toNat)) % (2 ^ k - 1) := by
  have h := addInv_toNat hk y hy.le
  rw [subMod, c38_add hk _ _ (by rw [h]; omega), h]

/-- C38: reduction of an arbitrary word. -/
theorem c38_mod (hk0 : 0 < k) (hk : k < W) (hW : W - k < k) (x : BitVec W) : (modP k x).toNat = x.toNat % (2 ^ k - 1) := by
  have hp : 2 ≤ 2 ^ k := by
    calc 2 = 2 ^ 1 := rfl
      _ ≤ 2 ^ k := Nat.pow_le_pow_right (by omega) hk0
  have hA : x.toNat % 2 ^ k < 2 ^ k := Nat.mod_lt _ (by omega)
  have hB : x.toNat / 2 ^ k < 2 ^ (W - k) := by
    rw [Nat.div_lt_iff_lt_mul (by omega), ← Nat.pow_add, show W - k + k = W by omega]; exact x.isLt
  have h2 : 2 * 2 ^ (W - k) ≤ 2 ^ k := by
    rw [← Nat.pow_succ']; exact Nat.pow_le_pow_right (by omega) (by omega)
  have hWk : 2 * 2 ^ k ≤ 2 ^ W := by
    rw [← Nat.pow_succ']; exact Nat.pow_le_pow_right (by omega) hk
  have h1 : 1 ≤ 2 ^ (W - k) := Nat.one_le_two_pow
  rw [add_halves_mod x.toNat k]
  refine reduce_once (P := 2 ^ k - 1) (by omega) hk rfl _ ?_
  rw [BitVec.toNat_add, and_prime hk, BitVec.toNat_ushiftRight, Nat.shiftRight_eq_div_pow, Nat.mod_eq_of_lt (by omega)]

/-! ### Inversion -/

theorem one_toNat (hW : 0 < W) : (1 : BitVec W).toNat = 1 := by
  show (BitVec.ofNat W 1).toNat = 1
  rw [BitVec.toNat_ofNat, Nat.mod_eq_of_lt (Nat.one_lt_two_pow (by omega))]

theorem zero_toNat : (0 : BitVec W).toNat = 0 := by
  show (BitVec.ofNat W 0).toNat = 0
  simp

theorem extendGcd_spec {mul : BitVec W → BitVec W → BitVec W × BitVec W} (hmul : MulOk mul) (hk2 : 2 ≤ k) (hk : k < W)
    (n : ℕ) (a b : BitVec W) (hn : b.toNat = n) (ha : a.toNat ≤ 2 ^ k - 1) (hb : b.toNat ≤ 2 ^ k - 1) :
    (extendGcd mul k a b).1.toNat < 2 ^ k - 1 ∧ (extendGcd mul k a b).2.toNat < 2 ^ k - 1 ∧
      ((a.toNat * (extendGcd mul k a b).1.toNat + b.toNat * (extendGcd mul k a b).2.toNat : ℕ) : ZMod (2 ^ k - 1)) =
        (Nat.gcd a.toNat b.toNat : ℕ) := by
  have hp : 4 ≤ 2 ^ k := by
    calc 4 = 2 ^ 2 := rfl
      _ ≤ 2 ^ k := Nat.pow_le_pow_right (by omega) hk2
  induction n using Nat.strong_induction_on generalizing a b with
  | _ n ih =>
    rw [extendGcd]
    by_cases h0 : b.toNat = 0
    · rw [dif_pos h0]
      simp only
      rw [one_toNat (by omega), zero_toNat, h0]
      refine ⟨by omega, by omega, by simp⟩
    · rw [dif_neg h0]
      simp only
      have hmod : (a % b).toNat = a.toNat % b.toNat := BitVec.toNat_umod
      have hlt : a.toNat % b.toNat < b.toNat := Nat.mod_lt _ (by omega)
      obtain ⟨h1, h2, h3⟩ := ih (a % b).toNat (by rw [hmod]; omega) b (a % b) rfl hb (by rw [hmod]; omega)
      set r := extendGcd mul k b (a % b)
      have hdiv : (a / b).toNat = a.toNat / b.toNat := BitVec.toNat_udiv
      have hq : (a / b).toNat ≤ 2 ^ k - 1 := by rw [hdiv]; exact le_trans (Nat.div_le_self _ _) ha
      have ht := c38_mul hmul (by omega) hk (a / b) r.2 hq h2.le
      have htl : (mulMod mul k (a / b) r.2).toNat < 2 ^ k - 1 := by rw [ht]; exact Nat.mod_lt _ (by omega)
      have hi := addInv_toNat hk (mulMod mul k (a / b) r.2) htl.le
      have hy := c38_add hk r.1 (addInv k (mulMod mul k (a / b) r.2)) (by rw [hi]; omega)
      refine ⟨h2, ?_, ?_⟩
      · rw [hy]; exact Nat.mod_lt _ (by omega)
      · rw [hy, hi, ht, hdiv, Nat.gcd_comm a.toNat, Nat.gcd_rec b.toNat a.toNat, ← Nat.gcd_comm b.toNat]
        rw [hmod] at h3
        rw [← h3]
        have hz : ((2 ^ k - 1 : ℕ) : ZMod (2 ^ k - 1)) = 0 := ZMod.natCast_self _
        have hdm : (a.toNat : ZMod (2 ^ k - 1)) = b.toNat * (a.toNat / b.toNat : ℕ) + (a.toNat % b.toNat : ℕ) := by
          conv_lhs => rw [← Nat.div_add_mod a.toNat b.toNat]
          push_cast; ring
        simp only [Nat.cast_add, Nat.cast_mul, ZMod.natCast_mod]
        rw [Nat.cast_sub (by rw [← hdiv, ← ht]; omega), hz, ZMod.natCast_mod, Nat.cast_mul, hdm]
        ring

/-- C38: inversion. -/
theorem c38_inv {mul : BitVec W → BitVec W → BitVec W × BitVec W} (hmul : MulOk mul) (hk2 : 2 ≤ k) (hk : k < W)
    (hprime : (2 ^ k - 1).Prime) (x : BitVec W) (hx : x.toNat < 2 ^ k - 1) (hx0 : x.toNat ≠ 0) :
    (mulInv mul k x).toNat < 2 ^ k - 1 ∧ x.toNat * (mulInv mul k x).toNat % (2 ^ k - 1) = 1 := by
  have hp : 4 ≤ 2 ^ k := by
    calc 4 = 2 ^ 2 := rfl
      _ ≤ 2 ^ k := Nat.pow_le_pow_right (by omega) hk2
  have hpr := prime_toNat hk
  obtain ⟨_, h2, h3⟩ := extendGcd_spec hmul hk2 hk _ (prime W k) x rfl (by rw [hpr]) hx.le
  refine ⟨h2, ?_⟩
  have hg : Nat.gcd (prime W k).toNat x.toNat = 1 := by
    rw [hpr]
    exact (Nat.Prime.coprime_iff_not_dvd hprime).2 fun hd => absurd (Nat.le_of_dvd (by omega) hd) (by omega)
  rw [hg, hpr] at h3
  have hz : ((2 ^ k - 1 : ℕ) : ZMod (2 ^ k - 1)) = 0 := ZMod.natCast_self _
  rw [Nat.cast_add, Nat.cast_mul, hz, zero_mul, zero_add, ZMod.natCast_eq_natCast_iff'] at h3
  rw [mulInv, h3, Nat.mod_eq_of_lt (by omega)]

/-- C38: division. -/
theorem c38_div {mul : BitVec W → BitVec W → BitVec W × BitVec W} (hmul : MulOk mul) (hk2 : 2 ≤ k) (hk : k < W)
    (hprime : (2 ^ k - 1).Prime) (x y : BitVec W) (hx : x.toNat < 2 ^ k - 1) (hy : y.toNat < 2 ^ k - 1) (hy0 : y.toNat ≠ 0) :
    (divMod mul k x y).toNat < 2 ^ k - 1 ∧ (divMod mul k x y).toNat * y.toNat % (2 ^ k - 1) = x.toNat := by
  obtain ⟨h1, h2⟩ := c38_inv hmul hk2 hk hprime y hy hy0
  have hm := c38_mul hmul (by omega) hk x (mulInv mul k y) hx.le h1.le
  refine ⟨by rw [divMod, hm]; exact Nat.mod_lt _ (by omega), ?_⟩
  rw [divMod, hm, Nat.mod_mul_mod, Nat.mul_assoc, Nat.mul_comm (mulInv mul k y).toNat, Nat.mul_mod, h2, Nat.mul_one,
    Nat.mod_mod, Nat.mod_eq_of_lt hx]

/-! ### Exponentiation -/

theorem expLoop_spec {mul : BitVec W → BitVec W → BitVec W × BitVec W} (hmul : MulOk mul) (hk2 : 2 ≤ k) (hk : k < W)
    (n : ℕ) (power inter e : BitVec W) (hn : e.toNat = n) (he : e.toNat ≠ 0) (hp : power.toNat < 2 ^ k - 1)
    (hi : inter.toNat < 2 ^ k - 1) :
    (expLoop mul k power inter e).toNat = power.toNat ^ e.toNat * inter.toNat % (2 ^ k - 1) := by
  have hp4 : 4 ≤ 2 ^ k := by
    calc 4 = 2 ^ 2 := rfl
      _ ≤ 2 ^ k := Nat.pow_le_pow_right (by omega) hk2
  induction n using Nat.strong_induction_on generalizing power inter e with
  | _ n ih =>
    rw [expLoop]
    have hs : (e >>> 1).toNat = e.toNat / 2 := by rw [BitVec.toNat_ushiftRight, Nat.shiftRight_eq_div_pow]
    have hodd : e &&& 1 ≠ 0 ↔ e.toNat % 2 = 1 := by
      have h1 : (e &&& 1).toNat = e.toNat % 2 := by
        rw [BitVec.toNat_and, one_toNat (by omega), Nat.and_one_is_mod]
      rw [← h1, Ne, ← BitVec.toNat_inj, zero_toNat, h1]
      omega
    set inter' := if e &&& 1 ≠ 0 then mulMod mul k power inter else inter with hint
    have hi' : inter'.toNat = power.toNat ^ (e.toNat % 2) * inter.toNat % (2 ^ k - 1) := by
      rw [hint]
      by_cases ho : e.toNat % 2 = 1
      · rw [if_pos (hodd.2 ho), ho, Nat.pow_one]
        exact c38_mul hmul (by omega) hk power inter hp.le hi.le
      · rw [if_neg (fun h => ho (hodd.1 h)), show e.toNat % 2 = 0 by omega, Nat.pow_zero, Nat.one_mul, Nat.mod_eq_of_lt hi]
    have hil : inter'.toNat < 2 ^ k - 1 := by rw [hi']; exact Nat.mod_lt _ (by omega)
    by_cases h0 : (e >>> 1).toNat = 0
    · rw [dif_pos h0, hi', show e.toNat % 2 = e.toNat by omega]
    · rw [dif_neg h0]
      have hpp := c38_mul hmul (by omega) hk power power hp.le hp.le
      rw [ih (e >>> 1).toNat (by omega) (mulMod mul k power power) inter' (e >>> 1) rfl h0
        (by rw [hpp]; exact Nat.mod_lt _ (by omega)) hil, hpp, hi', hs]
      have he2 : e.toNat = 2 * (e.toNat / 2) + e.toNat % 2 := by omega
      conv_rhs => rw [he2, Nat.pow_add, Nat.pow_mul]
      rw [← Nat.pow_two, Nat.mul_mod, Nat.pow_mod, Nat.mod_mod, ← Nat.pow_mod, Nat.mod_mod, ← Nat.mul_mod, Nat.mul_assoc]

/-- C38: exponentiation. -/
theorem c38_exp {mul : BitVec W → BitVec W → BitVec W × BitVec W} (hmul : MulOk mul) (hk2 : 2 ≤ k) (hk : k < W)
    (x e : BitVec W) (hx : x.toNat < 2 ^ k - 1) : (expMod mul k x e).toNat = x.toNat ^ e.toNat % (2 ^ k - 1) := by
  have hp4 : 4 ≤ 2 ^ k := by
    calc 4 = 2 ^ 2 := rfl
      _ ≤ 2 ^ k := Nat.pow_le_pow_right (by omega) hk2
  unfold expMod
  by_cases h0 : e = 0
  · rw [if_pos h0, h0, zero_toNat, one_toNat (by omega), Nat.pow_zero, Nat.mod_eq_of_lt (by omega)]
  · rw [if_neg h0]
    by_cases h1 : e = 1
    · rw [if_pos h1, h1, one_toNat (by omega), Nat.pow_one, Nat.mod_eq_of_lt hx]
    · rw [if_neg h1, expLoop_spec hmul hk2 hk _ x 1 e rfl (fun h => h0 (BitVec.eq_of_toNat_eq (by rw [h, zero_toNat]))) hx
        (by rw [one_toNat (by omega)]; omega), one_toNat (by omega), Nat.mul_one]

/-! ### The supported fields -/

theorem mersenne31 : (2 ^ 31 - 1).Prime := lucas_lehmer_sufficiency 31 (by norm_num) (by norm_num)
theorem mersenne61 : (2 ^ 61 - 1).Prime := lucas_lehmer_sufficiency 61 (by norm_num) (by norm_num)
theorem mersenne127 : (2 ^ 127 - 1).Prime := lucas_lehmer_sufficiency 127 (by norm_num) (by norm_num)

/-- C38 for FM32. -/
theorem c38_fm32 (x y : BitVec 32) (hx : x.toNat < 2 ^ 31 - 1) (hy : y.toNat < 2 ^ 31 - 1) (e : BitVec 32) :
    (addMod 31 x y).toNat = (x.toNat + y.toNat) % (2 ^ 31 - 1) ∧
    (subMod 31 x y).toNat = (x.toNat + (2 ^ 31 - 1 - y.toNat)) % (2 ^ 31 - 1) ∧
    (mulMod mulNarrow 31 x y).toNat = x.toNat * y.toNat % (2 ^ 31 - 1) ∧
    (expMod mulNarrow 31 x e).toNat = x.toNat ^ e.toNat % (2 ^ 31 - 1) ∧
    (x.toNat ≠ 0 → (mulInv mulNarrow 31 x).toNat < 2 ^ 31 - 1 ∧ x.toNat * (mulInv mulNarrow 31 x).toNat % (2 ^ 31 - 1) = 1) :=
  ⟨c38_add (by omega) x y (by omega), c38_sub (by omega) x y hx hy, c38_mul mulNarrow_ok (by omega) (by omega) x y hx.le hy.le,
    c38_exp mulNarrow_ok (by omega) (by omega) x e hx, c38_inv mulNarrow_ok (by omega) (by omega) mersenne31 x hx⟩

/-- C38 for FM64. -/
theorem c38_fm64 (x y : BitVec 64) (hx : x.toNat < 2 ^ 61 - 1) (hy : y.toNat < 2 ^ 61 - 1) (e : BitVec 64) :
    (addMod 61 x y).toNat = (x.toNat + y.toNat) % (2 ^ 61 - 1) ∧
    (subMod 61 x y).toNat = (x.toNat + (2 ^ 61 - 1 - y.toNat)) % (2 ^ 61 - 1) ∧
    (mulMod mulNarrow 61 x y).toNat = x.toNat * y.toNat % (2 ^ 61 - 1) ∧
    (expMod mulNarrow 61 x e).toNat = x.toNat ^ e.toNat % (2 ^ 61 - 1) ∧
    (x.toNat ≠ 0 → (mulInv mulNarrow 61 x).toNat < 2 ^ 61 - 1 ∧ x.toNat * (mulInv mulNarrow 61 x).toNat % (2 ^ 61 - 1) = 1) :=
  ⟨c38_add (by omega) x y (by omega), c38_sub (by omega) x y hx hy, c38_mul mulNarrow_ok (by omega) (by omega) x y hx.le hy.le,
    c38_exp mulNarrow_ok (by omega) (by omega) x e hx, c38_inv mulNarrow_ok (by omega) (by omega) mersenne61 x hx⟩

/-- C38 for FM128. -/
theorem c38_fm128 (x y : BitVec (64 + 64)) (hx : x.toNat < 2 ^ 127 - 1) (hy : y.toNat < 2 ^ 127 - 1) (e : BitVec (64 + 64)) :
    (addMod 127 x y).toNat = (x.toNat + y.toNat) % (2 ^ 127 - 1) ∧
    (subMod 127 x y).toNat = (x.toNat + (2 ^ 127 - 1 - y.toNat)) % (2 ^ 127 - 1) ∧
    (mulMod mulWide 127 x y).toNat = x.toNat * y.toNat % (2 ^ 127 - 1) ∧
    (expMod mulWide 127 x e).toNat = x.toNat ^ e.toNat % (2 ^ 127 - 1) ∧
    (x.toNat ≠ 0 → (mulInv mulWide 127 x).toNat < 2 ^ 127 - 1 ∧ x.toNat * (mulInv mulWide 127 x).toNat % (2 ^ 127 - 1) = 1) :=
  ⟨c38_add (by omega) x y (by omega), c38_sub (by omega) x y hx hy, c38_mul mulWide_ok (by omega) (by omega) x y hx.le hy.le,
    c38_exp mulWide_ok (by omega) (by omega) x e hx, c38_inv mulWide_ok (by omega) (by omega) mersenne127 x hx⟩

/-! ### Examples -/

example : mulMod mulNarrow 31 (0x7ffffffe : BitVec 32) 0x7ffffffe = 1 := by decide
example : mulMod (mulWide (h := 64)) 127 0x7ffffffffffffffffffffffffffffffe 5 = 0x7ffffffffffffffffffffffffffffffa := by decide
example : subMod 61 (3 : BitVec 64) 5 = 0x1ffffffffffffffd := by decide
/-- the largest product -/
example : (mulWide (h := 64) (-1) (-1)) = (1, -2) := by decide

end Spu.Props

import Verif.Spec.ModSwitch
import Mathlib.Data.Nat.ChineseRemainder
import Mathlib.Data.Nat.Size
import Mathlib.Data.ZMod.Units
import Mathlib.RingTheory.Coprime.Lemmas
import Mathlib.Algebra.BigOperators.Ring.Finset
import Mathlib.Algebra.Order.BigOperators.Ring.Finset
import Mathlib.Tactic.LinearCombination
import Mathlib.Tactic.Ring
import Mathlib.Tactic.Linarith
import Mathlib.Tactic.FieldSimp
import Mathlib.Tactic.IntervalCases
import Mathlib.Tactic.NormNum

set_option autoImplicit false

namespace Spu.Props

open Spu.Model.Ms Spu.Spec.Ms

/-! ## Words -/

theorem assign_eq {lo hi : ℕ} (h : lo < 2 ^ 64) : assignU128 lo hi = hi * 2 ^ 64 + lo := by
  rw [assignU128, ← Nat.shiftLeft_add_eq_or_of_lt h, Nat.shiftLeft_eq]

theorem limb_lt (x i : ℕ) : limb x i < 2 ^ 64 := Nat.mod_lt _ (by norm_num)

theorem mask_and (x b : ℕ) (hb : b ≤ 64) : x &&& u64BitMask b = x % 2 ^ b := by
  have : u64BitMask b = 2 ^ b - 1 := by unfold u64BitMask; split_ifs with h; · rw [h]
                                        · rfl
  rw [this, Nat.and_two_pow_sub_one_eq_mod]

theorem modLimbs_eq {x size bw : ℕ} (h2 : 2 ≤ bw) (h1 : bw ≤ 128) (hx : size ≤ 1 → x < 2 ^ 64) :
    modLimbs x size bw = x % 2 ^ bw := by
  have h0 : limb x 0 = x % 2 ^ 64 := by simp [limb]
  have hl1 : (if 1 < size then limb x 1 else 0) = x / 2 ^ 64 % 2 ^ 64 := by
    split_ifs with h
    · simp [limb]
    · rw [Nat.div_eq_of_lt (hx (by omega))]; rfl
  unfold modLimbs
  dsimp only
  rw [hl1, h0]
  rcases le_or_gt bw 64 with h | h
  · have hn : (bw + 63) / 64 = 1 := by omega
    rw [hn, if_neg (by omega), assign_eq, mask_and _ _ (by omega)]
    · simp only [Nat.sub_self, Nat.mul_zero, Nat.sub_zero, Nat.zero_mul, Nat.zero_add]
      exact Nat.mod_mod_of_dvd _ (pow_dvd_pow 2 h)
    · rw [mask_and _ _ (by omega)]
      exact lt_of_le_of_lt (Nat.mod_le _ _) (Nat.mod_lt _ (by norm_num))
  · have hn : (bw + 63) / 64 = 2 := by omega
    rw [hn, if_pos (by omega), assign_eq (Nat.mod_lt _ (by norm_num)), mask_and _ _ (by omega),
      Nat.mod_mod_of_dvd _ (pow_dvd_pow 2 (show bw - 64 * (2 - 1) ≤ 64 by omega))]
    have e : 2 ^ bw = 2 ^ 64 * 2 ^ (bw - 64 * (2 - 1)) := by rw [← pow_add]; congr 1; omega
    rw [e, Nat.mod_mul]; ring

theorem inv2kLoop_pow (n : ℕ) : ∀ m i p x, p % 2 ^ n = x % 2 ^ n →
    (inv2kLoop n m (i, p)).1 % 2 ^ n = i * x ^ (2 ^ m - 1) % 2 ^ n
  | 0, i, p, x, _ => by simp [inv2kLoop]
  | m + 1, i, p, x, h => by
    rw [inv2kLoop, inv2kLoop_pow n m _ _ (x ^ 2) (by rw [Nat.mod_mod, pow_two]; exact Nat.ModEq.mul h h)]
    have e : 2 ^ (m + 1) - 1 = 1 + 2 * (2 ^ m - 1) := by
      have := Nat.one_le_two_pow (n := m); rw [pow_succ]; omega
    rw [e, pow_add, pow_one, pow_mul, ← mul_assoc]
    exact Nat.ModEq.mul_right _ ((Nat.mod_modEq _ _).trans (Nat.ModEq.mul_left _ h))

theorem odd_pow (x : ℕ) (hx : x % 2 = 1) : ∀ n, x ^ (2 ^ n) % 2 ^ (n + 1) = 1
  | 0 => by simpa using hx
  | n + 1 => by
    have ih := odd_pow x hx n
    obtain ⟨y, hy⟩ : ∃ y, x ^ (2 ^ n) = 1 + 2 ^ (n + 1) * y := ⟨x ^ (2 ^ n) / 2 ^ (n + 1), by
      conv_lhs => rw [← Nat.mod_add_div (x ^ (2 ^ n)) (2 ^ (n + 1)), ih]⟩
    have e : x ^ 2 ^ (n + 1) = 1 + 2 ^ (n + 1 + 1) * (y + 2 ^ n * y ^ 2) := by
      rw [pow_succ 2 n, pow_mul, hy]; ring
    rw [e, Nat.add_mul_mod_self_left]
    exact Nat.mod_eq_of_lt (Nat.one_lt_two_pow (by omega))

/-- `Inv2k` inverts every odd word. -/
theorem c58_inv2k {n x : ℕ} (hn : 0 < n) (hx : x % 2 = 1) :
    ∃ i, inv2k n x = some i ∧ i < 2 ^ n ∧ x * i % 2 ^ n = 1 := by
  have one : 1 % 2 ^ n = 1 := Nat.mod_eq_of_lt (Nat.one_lt_two_pow (by omega))
  refine ⟨(inv2kLoop n (n - 1) (1 % 2 ^ n, x)).1, if_pos hx, ?_, ?_⟩
  · have : ∀ m i p, i < 2 ^ n → (inv2kLoop n m (i, p)).1 < 2 ^ n := by
      intro m
      induction m with
      | zero => intro i p h; exact h
      | succ m ih => intro i p _; exact ih _ _ (Nat.mod_lt _ (by positivity))
    exact this _ _ _ (Nat.mod_lt _ (by positivity))
  · have h := inv2kLoop_pow n (n - 1) (1 % 2 ^ n) x x rfl
    rw [one, one_mul] at h
    rw [one, Nat.mul_mod, h, ← Nat.mul_mod, ← pow_succ',
      show 2 ^ (n - 1) - 1 + 1 = 2 ^ (n - 1) from Nat.sub_add_cancel Nat.one_le_two_pow]
    have := odd_pow x hx (n - 1)
    rwa [show n - 1 + 1 = n by omega] at this

theorem guard_bind {α : Type} {p : Prop} [Decidable p] (hp : p) (f : Unit → Option α) :
    ((guard p : Option Unit) >>= f) = f () := by rw [guard, if_pos hp]; rfl

/-! ## The constants -/

theorem Q_pos {c : Ctx} (H : CtxOk c) : 0 < c.Q :=
  Finset.prod_pos fun l hl => by have := H.one l (Finset.mem_range.1 hl); omega

theorem Q_mul {c : Ctx} {l : ℕ} (hl : l < c.L) : c.q l * c.pun l = c.Q :=
  Finset.mul_prod_erase _ _ (Finset.mem_range.2 hl)

theorem prod_odd {s : Finset ℕ} {f : ℕ → ℕ} (h : ∀ l ∈ s, f l % 2 = 1) : (∏ l ∈ s, f l) % 2 = 1 := by
  induction s using Finset.induction_on with
  | empty => rfl
  | insert a s ha ih =>
    rw [Finset.prod_insert ha, Nat.mul_mod, h a (Finset.mem_insert_self _ _),
      ih fun l hl => h l (Finset.mem_insert_of_mem hl)]

theorem Q_odd {c : Ctx} (H : CtxOk c) : c.Q % 2 = 1 := prod_odd fun l hl => H.odd l (Finset.mem_range.1 hl)

theorem Q_cop {c : Ctx} (H : CtxOk c) : Nat.Coprime c.Q c.g :=
  Nat.Coprime.prod_left fun l hl => H.gcop l (Finset.mem_range.1 hl)

theorem Q_one {c : Ctx} (H : CtxOk c) (h : c.L ≤ 1) : c.Q < 2 ^ 64 := by
  have : c.L = 1 := by have := H.pos; omega
  have := H.lt 0 (by omega)
  simp only [Ctx.Q, ‹c.L = 1›, Finset.prod_range_one]
  omega

theorem pun_one {c : Ctx} (h : c.L ≤ 1) {l : ℕ} (hl : l < c.L) : c.pun l < 2 ^ 64 := by
  have : c.L = 1 := by omega
  have hl0 : l = 0 := by omega
  simp [Ctx.pun, this, hl0]

/-- What the constants of `Init` are. -/
structure HelperOk (c : Ctx) (h : Helper) : Prop where
  ctx : h.c = c
  negInvQt : (h.negInvQt : ZMod (2 ^ c.k)) * (c.Q : ZMod (2 ^ c.k)) = -1
  invGt : (h.invGt : ZMod (2 ^ c.k)) * (c.g : ZMod (2 ^ c.k)) = 1
  negInvQg : (h.negInvQg : ZMod c.g) * (c.Q : ZMod c.g) = -1
  punT : ∀ l, l < c.L → h.punT l = c.pun l % 2 ^ c.k
  gt : ∀ l, l < c.L → (h.gt l : ZMod (c.q l)) = (c.g : ZMod (c.q l)) * 2 ^ c.k
  mask : h.mask = 2 ^ c.k - 1
  tHalf : h.tHalf = 2 ^ (c.k - 1)
  QmodT : h.QmodT = c.Q % 2 ^ c.k
  QdivT : ∀ l, l < c.L → h.QdivT l = c.Q / 2 ^ c.k % c.q l

theorem cast_mod_pow {k W : ℕ} (h : k ≤ W) (x : ℕ) : ((x % 2 ^ W : ℕ) : ZMod (2 ^ k)) = (x : ZMod (2 ^ k)) :=
  (ZMod.natCast_eq_natCast_iff _ _ _).2 ((Nat.mod_modEq x (2 ^ W)).of_dvd (pow_dvd_pow 2 h))

theorem cast_sub_pow {k W : ℕ} (h : k ≤ W) {x : ℕ} (hx : x ≤ 2 ^ W) :
    ((2 ^ W - x : ℕ) : ZMod (2 ^ k)) = -(x : ZMod (2 ^ k)) := by
  rw [Nat.cast_sub hx]
  have : ((2 ^ W : ℕ) : ZMod (2 ^ k)) = 0 := (ZMod.natCast_eq_zero_iff _ _).2 (pow_dvd_pow 2 h)
  rw [this, zero_sub]

theorem msAndMask (x k : ℕ) : x &&& (2 ^ k - 1) = x % 2 ^ k := Nat.and_two_pow_sub_one_eq_mod x k

/-- `Init` succeeds and sets every constant to its value. -/
theorem init_ok {c : Ctx} (H : CtxOk c) : ∃ h, init c = some h ∧ HelperOk c h := by
  have hk := H.lo
  have hk' := H.hi
  have hmask : (if c.k = 128 then 2 ^ 128 - 1 else 2 ^ c.k - 1) = 2 ^ c.k - 1 := by
    split_ifs with h; · rw [h]
    · rfl
  set n := if c.k ≤ 64 then 64 else 128 with hn
  set Qw := if c.k ≤ 64 then limb c.Q 0 else assignU128 (limb c.Q 0) (if 1 < c.L then limb c.Q 1 else 0) with hQw
  have hkn : c.k ≤ n := by rw [hn]; split_ifs <;> omega
  have hn0 : 0 < n := by omega
  have hl1 : (if 1 < c.L then limb c.Q 1 else 0) = c.Q / 2 ^ 64 % 2 ^ 64 := by
    split_ifs with h
    · simp [limb]
    · rw [Nat.div_eq_of_lt (Q_one H (by omega))]; rfl
  have hQw' : Qw = c.Q % 2 ^ n := by
    rw [hQw, hn]
    split_ifs with h
    · simp [limb]
    all_goals
      have := hl1
      rw [assign_eq (limb_lt _ _), show limb c.Q 0 = c.Q % 2 ^ 64 by simp [limb],
        show (2 : ℕ) ^ 128 = 2 ^ 64 * 2 ^ 64 by norm_num, Nat.mod_mul]
      simp_all
      try ring
  have hQodd : Qw % 2 = 1 := by
    rw [hQw', Nat.mod_mod_of_dvd _ (dvd_pow_self 2 (by omega))]; exact Q_odd H
  obtain ⟨i, hi, hilt, hi1⟩ := c58_inv2k hn0 hQodd
  obtain ⟨j, hj, hjlt, hj1⟩ := c58_inv2k (x := c.g) hn0 H.godd
  have hp : 1 < 2 ^ c.k := Nat.one_lt_two_pow (by omega)
  have one : ∀ x : ℕ, x % 2 ^ n = 1 → (x : ZMod (2 ^ c.k)) = 1 := by
    intro x hx; rw [← cast_mod_pow hkn x, hx, Nat.cast_one]
  have hQi : (c.Q : ZMod (2 ^ c.k)) * i = 1 := by
    have := one _ hi1
    rwa [Nat.cast_mul, hQw', cast_mod_pow hkn] at this
  have hgj : (c.g : ZMod (2 ^ c.k)) * j = 1 := by
    have := one _ hj1
    rwa [Nat.cast_mul] at this
  set a := ((2 ^ n - i) % 2 ^ n) &&& (2 ^ c.k - 1) with ha
  set b := j &&& (2 ^ c.k - 1) with hb
  have ha' : (a : ZMod (2 ^ c.k)) = -i := by
    rw [ha, msAndMask, cast_mod_pow le_rfl, cast_mod_pow hkn, cast_sub_pow hkn hilt.le]
  have hb' : (b : ZMod (2 ^ c.k)) = j := by rw [hb, msAndMask, cast_mod_pow le_rfl]
  have toOne : ∀ x : ℕ, (x : ZMod (2 ^ c.k)) = 1 → x &&& (2 ^ c.k - 1) = 1 := by
    intro x hx
    rw [msAndMask]
    have : (x : ZMod (2 ^ c.k)) = (1 : ℕ) := by rw [hx, Nat.cast_one]
    have := (ZMod.natCast_eq_natCast_iff' _ _ _).1 this
    rwa [Nat.mod_eq_of_lt hp] at this
  have g1 : 64 < c.k → ((2 ^ 128 - a) % 2 ^ 128 * Qw % 2 ^ 128) &&& (2 ^ c.k - 1) = 1 := by
    intro _
    apply toOne
    have hale : a ≤ 2 ^ 128 := by
      rw [ha, msAndMask]
      exact ((Nat.mod_lt _ (by positivity)).le).trans (Nat.pow_le_pow_right (by norm_num) hk')
    rw [cast_mod_pow hk', Nat.cast_mul, cast_mod_pow hk', cast_sub_pow hk' hale, ha', hQw', cast_mod_pow hkn, neg_neg,
      mul_comm, hQi]
  have g2 : 64 < c.k → (b * c.g % 2 ^ 128) &&& (2 ^ c.k - 1) = 1 := by
    intro _
    apply toOne
    rw [cast_mod_pow hk', Nat.cast_mul, hb', mul_comm, hgj]
  have g3 : ∀ l ∈ List.range c.L, c.g ≠ c.q l := by
    intro l hl e
    have hl := List.mem_range.1 hl
    have h1 := H.gcop l hl
    rw [← e, Nat.coprime_self] at h1
    have := H.gone; omega
  have g4 : Nat.Coprime (c.Q % c.g) c.g := by
    have := Q_cop H
    rw [Nat.Coprime, ← Nat.gcd_rec, Nat.gcd_comm]; exact this
  have hinit : init c = some {
      c := c, negInvQt := a, invGt := b, negInvQg := (c.g - modInv (c.Q % c.g) c.g) % c.g
      punT := fun l => modLimbs (c.pun l) c.L c.k
      gt := fun l => gammaT c.k c.g (c.q l)
      mask := 2 ^ c.k - 1, tHalf := 2 ^ (c.k - 1), QmodT := modLimbs c.Q c.L c.k
      QdivT := fun l => (if c.k < Nat.size c.Q then c.Q >>> c.k else 0) % c.q l } := by
    unfold init
    simp only [hmask, ← hn, ← hQw, negInv, hi, hj, Option.map_some, ← ha, ← hb]
    rw [guard_bind ⟨hk', hk⟩, guard_bind g3]
    show ((guard _ : Option Unit) >>= fun _ => (guard _ : Option Unit) >>= fun _ => (guard _ : Option Unit) >>= _) = _
    rw [guard_bind g1, guard_bind g2, guard_bind g4]
  refine ⟨_, hinit, ⟨rfl, ?_, ?_, ?_, ?_, ?_, rfl, rfl, ?_, ?_⟩⟩
  · show (a : ZMod (2 ^ c.k)) * _ = -1
    rw [ha']; linear_combination -hQi
  · show (b : ZMod (2 ^ c.k)) * _ = 1
    rw [hb']; linear_combination hgj
  · show (((c.g - modInv (c.Q % c.g) c.g) % c.g : ℕ) : ZMod c.g) * _ = -1
    haveI : NeZero c.g := ⟨by have := H.gone; omega⟩
    rw [modInv, ZMod.natCast_mod, Nat.cast_sub (ZMod.val_lt _).le, ZMod.natCast_self, zero_sub, ZMod.natCast_zmod_val,
      ZMod.natCast_mod]
    have := ZMod.coe_mul_inv_eq_one c.Q (Q_cop H)
    linear_combination -this
  · intro l hl
    exact modLimbs_eq H.lo H.hi fun h => pun_one h hl
  · intro l hl
    show (gammaT c.k c.g (c.q l) : ZMod (c.q l)) = _
    unfold gammaT
    simp only [ZMod.natCast_mod, Nat.cast_mul, Nat.cast_pow, Nat.cast_ofNat]
    rw [← pow_add, show c.k / 2 + (c.k - c.k / 2) = c.k by omega]
  · exact modLimbs_eq H.lo H.hi (Q_one H)
  · intro l hl
    show (if c.k < Nat.size c.Q then c.Q >>> c.k else 0) % c.q l = _
    split_ifs with h
    · rw [Nat.shiftRight_eq_div_pow]
    · rw [Nat.div_eq_of_lt (Nat.size_le.1 (by omega))]

/-! ## Upwards -/

theorem le_bitCeil (k : ℕ) : k ≤ bitCeil k := Nat.le_pow_clog (by norm_num) k

theorem bitCeil_le {k : ℕ} (h : k ≤ 128) : bitCeil k ≤ 128 :=
  (Nat.pow_le_pow_right (by norm_num) ((Nat.clog_le_iff_le_pow (by norm_num)).2 (show k ≤ 2 ^ 7 by omega))).trans (by norm_num)

theorem bitCeil_lt {k : ℕ} : bitCeil k < 128 ↔ k ≤ 64 := by
  constructor
  · intro h
    by_contra hk
    have : 6 < Nat.clog 2 k := (Nat.lt_clog_iff_pow_lt (by norm_num)).2 (by omega)
    have : 2 ^ 7 ≤ bitCeil k := Nat.pow_le_pow_right (by norm_num) (by omega)
    omega
  · intro h
    have := Nat.pow_le_pow_right (n := 2) (by norm_num)
      ((Nat.clog_le_iff_le_pow (b := 2) (by norm_num) (x := k) (y := 6)).2 (by omega))
    have : bitCeil k ≤ 2 ^ 6 := this
    omega

theorem near_div (a : ℕ) {k : ℕ} (hk : 0 < k) :
    near ((a : ℚ) / 2 ^ k) = (((a + 2 ^ (k - 1)) / 2 ^ k : ℕ) : ℤ) := by
  have e : (a : ℚ) / 2 ^ k + 1 / 2 = ((a + 2 ^ (k - 1) : ℕ) : ℚ) / ((2 ^ k : ℕ) : ℚ) := by
    obtain ⟨m, rfl⟩ : ∃ m, k = m + 1 := ⟨k - 1, by omega⟩
    have : (2 : ℚ) ^ m ≠ 0 := by positivity
    push_cast
    rw [pow_succ]
    field_simp
  rw [near, e, Rat.floor_natCast_div_natCast]
  rfl

theorem round_split (Q x : ℕ) {t : ℕ} (ht : 0 < t) (a : ℕ) :
    (Q * x + a) / t = Q / t * x + (Q % t * x + a) / t := by
  have : Q * x + a = (Q % t * x + a) + t * (Q / t * x) := by
    conv_lhs => rw [← Nat.mod_add_div Q t]
    ring
  rw [this, Nat.add_mul_div_left _ _ ht, add_comm]

theorem up_small {r x k : ℕ} (hk : 0 < k) (hx : x < 2 ^ k) : (r * x + 2 ^ (k - 1)) / 2 ^ k ≤ r := by
  have e : 2 ^ k = 2 * 2 ^ (k - 1) := by rw [← pow_succ']; congr 1; omega
  have h0 : 0 < 2 ^ (k - 1) := by positivity
  rw [Nat.div_le_iff_le_mul_add_pred (by positivity)]
  have : r * x ≤ r * 2 ^ k := Nat.mul_le_mul_left _ hx.le
  rw [mul_comm (2 ^ k) r]
  omega

/-- The sums of `ModulusUpAt` stay inside their words. -/
def UpFits (c : Ctx) (l : ℕ) : Prop := c.Q % 2 ^ c.k + c.q l ≤ if c.k ≤ 64 then 2 ^ 64 else 2 ^ 128

/-- `ModulusUpAt` gives the residue of the nearest integer to `Q x / 2^k`. -/
theorem c58_up {c : Ctx} (H : CtxOk c) {h : Helper} (hh : init c = some h) {l x : ℕ} (hl : l < c.L)
    (hx : x < 2 ^ c.k) (hf : UpFits c l) :
    upAt h (bitCeil c.k) l x = some ((near ((c.Q : ℚ) * x / 2 ^ c.k) % (c.q l : ℤ)).toNat) := by
  obtain ⟨h', e, K⟩ := init_ok H
  obtain rfl : h = h' := by rw [hh] at e; exact Option.some.inj e
  have hk := H.lo
  have hk' := H.hi
  have hk0 : 0 < c.k := by omega
  have hq := H.one l hl
  have ht : 0 < 2 ^ c.k := by positivity
  set r := c.Q % 2 ^ c.k with hr
  have hrt : r < 2 ^ c.k := Nat.mod_lt _ ht
  set v := (r * x + 2 ^ (c.k - 1)) / 2 ^ c.k with hv
  have hvr : v ≤ r := up_small hk0 hx
  have hspec : (near ((c.Q : ℚ) * x / 2 ^ c.k) % (c.q l : ℤ)).toNat = (c.Q / 2 ^ c.k * x + v) % c.q l := by
    rw [← Nat.cast_mul, near_div _ hk0, round_split _ _ ht, ← Int.natCast_mod, Int.toNat_natCast]
  rw [hspec]
  set u := x % c.q l * h.QdivT l % c.q l with hu
  have hult : u < c.q l := Nat.mod_lt _ (by omega)
  have hu' : (u + v) % c.q l = (c.Q / 2 ^ c.k * x + v) % c.q l := by
    apply Nat.ModEq.add_right
    rw [hu, K.QdivT l hl, mul_comm (c.Q / 2 ^ c.k)]
    exact (Nat.mod_modEq _ _).trans (Nat.ModEq.mul (Nat.mod_modEq _ _) (Nat.mod_modEq _ _))
  have hbound : r * x + 2 ^ (c.k - 1) < 2 ^ c.k * 2 ^ c.k := by
    have h1 : r * x ≤ (2 ^ c.k - 1) * (2 ^ c.k - 1) := Nat.mul_le_mul (by omega) (by omega)
    have e : 2 ^ c.k = 2 * 2 ^ (c.k - 1) := by rw [← pow_succ']; congr 1; omega
    have h0 : 0 < 2 ^ (c.k - 1) := by positivity
    generalize 2 ^ (c.k - 1) = p at *
    rw [e] at h1 ⊢
    obtain ⟨m, rfl⟩ : ∃ m, p = m + 1 := ⟨p - 1, by omega⟩
    have : 2 * (m + 1) - 1 = 2 * m + 1 := by omega
    rw [this] at h1
    nlinarith
  unfold upAt
  rw [K.ctx, guard_bind rfl, guard_bind hl, K.QmodT, K.tHalf, ← hr]
  dsimp only
  rw [← hu]
  unfold UpFits at hf
  rcases le_or_gt c.k 64 with h64 | h64
  · rw [if_pos (bitCeil_lt.2 h64)]
    rw [if_pos h64] at hf
    have e1 : (r * x + 2 ^ (c.k - 1)) % 2 ^ 128 = r * x + 2 ^ (c.k - 1) := by
      apply Nat.mod_eq_of_lt
      refine hbound.trans_le ?_
      rw [← pow_add]; exact Nat.pow_le_pow_right (by norm_num) (by omega)
    have e2 : v % 2 ^ bitCeil c.k = v := Nat.mod_eq_of_lt
      ((hvr.trans_lt hrt).trans_le (Nat.pow_le_pow_right (by norm_num) (le_bitCeil _)))
    rw [e1, Nat.shiftRight_eq_div_pow, ← hv, e2, Nat.mod_eq_of_lt (show u + v < 2 ^ 64 by omega), hu']
  · rw [if_neg (by rw [bitCeil_lt]; omega)]
    rw [if_neg (by omega)] at hf
    have e0 : 2 ^ c.k * 2 ^ c.k ≤ 2 ^ 256 := by
      rw [← pow_add]; exact Nat.pow_le_pow_right (by norm_num) (by omega)
    have e1 : r * x % 2 ^ 256 = r * x := Nat.mod_eq_of_lt (((Nat.le_add_right _ _).trans_lt hbound).trans_le e0)
    have e2 : (r * x + 2 ^ (c.k - 1)) % 2 ^ 256 = r * x + 2 ^ (c.k - 1) := Nat.mod_eq_of_lt (hbound.trans_le e0)
    have e3 : (r * x + 2 ^ (c.k - 1)) >>> 64 >>> (c.k - 64) = v := by
      rw [← Nat.shiftRight_add, show 64 + (c.k - 64) = c.k by omega, Nat.shiftRight_eq_div_pow]
    have e4 : assignU128 (limb v 0) (limb v 1) = v := by
      have hv128 : v < 2 ^ 64 * 2 ^ 64 := (hvr.trans_lt hrt).trans_le (by
        rw [← pow_add]; exact Nat.pow_le_pow_right (by norm_num) (by omega))
      rw [assign_eq (limb_lt _ _), limb, limb]
      simp only [Nat.mul_zero, pow_zero, Nat.div_one, Nat.mul_one]
      rw [Nat.mod_eq_of_lt (Nat.div_lt_of_lt_mul hv128), mul_comm, Nat.div_add_mod]
    rw [e1, e2, e3, e4, Nat.mod_eq_of_lt (show u + v < 2 ^ 128 by omega), hu']

/-- `CenteralizeAt` gives the residue of the centred representative. -/
theorem c58_centre {c : Ctx} (H : CtxOk c) {h : Helper} (hh : init c = some h) {l x : ℕ} (hl : l < c.L)
    (hx : x < 2 ^ c.k) :
    centreAt h (bitCeil c.k) l x = some ((centred c.k x % (c.q l : ℤ)).toNat) := by
  obtain ⟨h', e, K⟩ := init_ok H
  obtain rfl : h = h' := by rw [hh] at e; exact Option.some.inj e
  have hq := H.one l hl
  have hk' := H.hi
  unfold centreAt centred
  rw [K.ctx, guard_bind rfl, guard_bind hl, K.tHalf, K.mask]
  dsimp only
  split_ifs with hc
  · congr 1
    have h128 : 2 ^ c.k ≤ 2 ^ 128 := Nat.pow_le_pow_right (by norm_num) hk'
    have hx0 : 0 < x := lt_of_le_of_lt (Nat.zero_le _) hc
    have e1 : ((2 ^ 128 - x) % 2 ^ 128) &&& (2 ^ c.k - 1) = 2 ^ c.k - x := by
      rw [msAndMask, Nat.mod_eq_of_lt (show 2 ^ 128 - x < 2 ^ 128 by omega)]
      obtain ⟨d, hd⟩ := pow_dvd_pow 2 hk'
      have hd0 : 0 < d := Nat.pos_of_ne_zero (by rintro rfl; simp at hd)
      have : 2 ^ 128 - x = (2 ^ c.k - x) + 2 ^ c.k * (d - 1) := by
        obtain ⟨d, rfl⟩ : ∃ d', d = d' + 1 := ⟨d - 1, by omega⟩
        rw [hd, Nat.add_sub_cancel, mul_add, mul_one]; omega
      rw [this, Nat.add_mul_mod_self_left, Nat.mod_eq_of_lt (by omega)]
    rw [e1]
    have e2 : (x : ℤ) - 2 ^ c.k = -((2 ^ c.k - x : ℕ) : ℤ) := by
      rw [Nat.cast_sub hx.le]; push_cast; ring
    rw [e2]
    generalize 2 ^ c.k - x = y
    unfold negMod
    have hlt : y % c.q l < c.q l := Nat.mod_lt _ (by omega)
    have hy : (-(y : ℤ)) % (c.q l : ℤ) = (-((y % c.q l : ℕ) : ℤ)) % (c.q l : ℤ) := by
      rw [Int.natCast_mod]; exact ((Int.mod_modEq (y : ℤ) _).neg).symm
    rw [hy]
    split_ifs with h0
    · rw [h0]; simp
    · have : (-((y % c.q l : ℕ) : ℤ)) % (c.q l : ℤ) = ((c.q l - y % c.q l : ℕ) : ℤ) := by
        rw [← Int.add_emod_right, Nat.cast_sub hlt.le]
        rw [Int.emod_eq_of_lt (by omega) (by omega)]
        ring
      rw [this, Int.toNat_natCast]
  · rw [← Int.natCast_mod, Int.toNat_natCast]

/-! ## Downwards -/

/-- The sum of the digits before reduction. -/
def digitSum (h : Helper) (src : ℕ → ℕ) : ℕ := ∑ l ∈ Finset.range h.c.L, digit h src l * h.c.pun l

theorem digitSum_lt {c : Ctx} (H : CtxOk c) {h : Helper} (K : HelperOk c h) (src : ℕ → ℕ) :
    digitSum h src < c.L * c.Q := by
  have : ∑ l ∈ Finset.range c.L, digit h src l * c.pun l < ∑ _l ∈ Finset.range c.L, c.Q := by
    apply Finset.sum_lt_sum_of_nonempty (Finset.nonempty_range_iff.2 H.pos.ne')
    intro l hl
    have hl := Finset.mem_range.1 hl
    have hp : 0 < c.pun l := Nat.pos_of_ne_zero fun e => by
      have := Q_mul hl; rw [e, mul_zero] at this; exact (Q_pos H).ne this
    rw [← Q_mul hl]
    refine Nat.mul_lt_mul_of_pos_right ?_ hp
    rw [digit, K.ctx]
    exact Nat.mod_lt _ (by have := H.one l hl; omega)
  rw [Finset.sum_const, Finset.card_range, smul_eq_mul] at this
  rw [digitSum, K.ctx]
  exact this

theorem pun_cop {c : Ctx} (H : CtxOk c) {l : ℕ} (hl : l < c.L) : Nat.Coprime (c.pun l) (c.q l) :=
  Nat.Coprime.prod_left fun j hj => by
    have hj := Finset.mem_erase.1 hj
    exact H.cop j (Finset.mem_range.1 hj.2) l hl hj.1

theorem digitSum_dvd {c : Ctx} (H : CtxOk c) {h : Helper} (K : HelperOk c h) {src : ℕ → ℕ} {X : ℕ}
    (hs : ∀ l, l < c.L → src l % c.q l = X % c.q l) :
    (c.Q : ℤ) ∣ (c.g : ℤ) * 2 ^ c.k * X - digitSum h src := by
  rw [Ctx.Q, Nat.cast_prod]
  apply Finset.prod_dvd_of_coprime
  · intro i hi j hj hij
    exact Nat.isCoprime_iff_coprime.2 (H.cop i (by simpa using hi) j (by simpa using hj) hij)
  · intro l hl
    have hl := Finset.mem_range.1 hl
    rw [← ZMod.intCast_zmod_eq_zero_iff_dvd]
    push_cast
    rw [digitSum, K.ctx, Nat.cast_sum, Finset.sum_eq_single l]
    · have hs' : (src l : ZMod (c.q l)) = X := (ZMod.natCast_eq_natCast_iff' _ _ _).2 (hs l hl)
      haveI : NeZero (c.q l) := ⟨by have := H.one l hl; omega⟩
      rw [digit, K.ctx, Nat.cast_mul, ZMod.natCast_mod, Nat.cast_mul, ZMod.natCast_mod, Nat.cast_mul, K.gt l hl, hs', modInv,
        ZMod.natCast_zmod_val]
      have := ZMod.coe_mul_inv_eq_one (c.pun l) (pun_cop H hl)
      linear_combination (-(X : ZMod (c.q l)) * (c.g * 2 ^ c.k)) * this
    · intro j hj hjl
      have : c.q l ∣ c.pun j := Finset.dvd_prod_of_mem _ (Finset.mem_erase.2 ⟨hjl.symm, Finset.mem_range.2 hl⟩)
      rw [Nat.cast_mul, (ZMod.natCast_eq_zero_iff _ _).2 this, mul_zero]
    · intro hn; exact absurd (Finset.mem_range.2 hl) hn

theorem onGamma_eq {c : Ctx} {h : Helper} (K : HelperOk c h) (src : ℕ → ℕ) :
    (onGamma h src : ZMod c.g) = -((digitSum h src : ℕ) : ZMod c.g) * (-(h.negInvQg : ZMod c.g)) := by
  rw [onGamma, K.ctx, ZMod.natCast_mod, Nat.cast_mul, ZMod.natCast_mod, digitSum, K.ctx, Nat.cast_sum, Nat.cast_sum]
  simp only [Nat.cast_mul, ZMod.natCast_mod]
  ring

theorem onT_eq {c : Ctx} {h : Helper} (K : HelperOk c h) {w : ℕ} (hw : c.k ≤ w) (hk : c.k ≤ 128) (src : ℕ → ℕ) :
    (onT h w src : ZMod (2 ^ c.k)) = ((digitSum h src : ℕ) : ZMod (2 ^ c.k)) * (h.negInvQt : ZMod (2 ^ c.k)) := by
  have key : ∀ n, n ≤ c.L → (((List.range n).foldl
      (fun y l => (y + digit h src l % 2 ^ w * (h.punT l % 2 ^ w)) % 2 ^ w) 0 : ℕ) : ZMod (2 ^ c.k)) =
      ((∑ l ∈ Finset.range n, digit h src l * c.pun l : ℕ) : ZMod (2 ^ c.k)) := by
    intro n
    induction n with
    | zero => intro _; simp
    | succ n ih =>
      intro hn
      rw [List.range_succ, List.foldl_append, List.foldl_cons, List.foldl_nil, cast_mod_pow hw, Nat.cast_add,
        ih (by omega), Finset.sum_range_succ, Nat.cast_add, Nat.cast_mul, cast_mod_pow hw, cast_mod_pow hw,
        K.punT n (by omega), cast_mod_pow le_rfl, Nat.cast_mul]
  unfold onT
  dsimp only
  rw [cast_mod_pow hw, K.mask, msAndMask, cast_mod_pow le_rfl, cast_mod_pow hk, Nat.cast_mul, K.ctx, key c.L le_rfl,
    digitSum, K.ctx]

theorem onGamma_lt {c : Ctx} (H : CtxOk c) {h : Helper} (K : HelperOk c h) (src : ℕ → ℕ) : onGamma h src < c.g := by
  rw [onGamma, K.ctx]; exact Nat.mod_lt _ (by have := H.gone; omega)

/-- The nearest integer from a centred remainder. -/
theorem near_of_rem {s m r : ℤ} {g : ℕ} (hg : 0 < g) (h : s = g * m + r) (h1 : -(g : ℤ) ≤ 2 * r) (h2 : 2 * r < g) :
    near ((s : ℚ) / g) = m := by
  have hg' : (0 : ℚ) < g := by exact_mod_cast hg
  rw [near, Int.floor_eq_iff, h]
  have e : (((g : ℤ) * m + r : ℤ) : ℚ) / g = m + r / g := by push_cast; field_simp
  have h1' : -(g : ℚ) ≤ 2 * r := by exact_mod_cast h1
  have h2' : 2 * (r : ℚ) < g := by exact_mod_cast h2
  have a1 : -(1 / 2 : ℚ) ≤ r / g := by rw [le_div_iff₀ hg']; linarith
  have a2 : (r : ℚ) / g < 1 / 2 := by rw [div_lt_iff₀ hg']; linarith
  rw [e]
  constructor <;> linarith

/-- `ModulusDownRNS` gives the nearest integer to `2^k X / Q`, up to an error below `L / gamma` before rounding. -/
theorem c58_down {c : Ctx} (H : CtxOk c) {h : Helper} (hh : init c = some h) {src : ℕ → ℕ} {X : ℕ}
    (hs : ∀ l, l < c.L → src l % c.q l = X % c.q l) :
    ∃ δ : ℚ, 0 ≤ δ ∧ δ < c.L / c.g ∧
      down h (bitCeil c.k) src = some ((near (2 ^ c.k * X / c.Q - δ) % 2 ^ c.k).toNat) := by
  obtain ⟨h', e, K⟩ := init_ok H
  obtain rfl : h = h' := by rw [hh] at e; exact Option.some.inj e
  obtain ⟨s, hsQ⟩ := digitSum_dvd H K hs
  have hQ : (0 : ℚ) < c.Q := by exact_mod_cast Q_pos H
  have hg0 : 0 < c.g := by have := H.gone; omega
  have hg : (0 : ℚ) < c.g := by exact_mod_cast hg0
  set D := digitSum h src with hD
  have hDlt : (D : ℚ) < c.L * c.Q := by exact_mod_cast digitSum_lt H K src
  refine ⟨D / (c.Q * c.g), by positivity, ?_, ?_⟩
  · rw [div_lt_div_iff₀ (by positivity) hg]
    nlinarith
  have hsr : (2 : ℚ) ^ c.k * X / c.Q - D / (c.Q * c.g) = (s : ℚ) / c.g := by
    have : (c.g : ℚ) * 2 ^ c.k * X - D = c.Q * s := by exact_mod_cast hsQ
    field_simp
    linarith
  rw [hsr]
  set a := onGamma h src with ha
  have halt : a < c.g := onGamma_lt H K src
  have hga : ((a : ℤ) : ZMod c.g) = (s : ZMod c.g) := by
    have h1 := onGamma_eq K src
    rw [← ha, ← hD] at h1
    have h2 := congrArg (Int.cast : ℤ → ZMod c.g) hsQ
    push_cast at h2
    rw [ZMod.natCast_self, zero_mul, zero_mul, zero_sub] at h2
    rw [Int.cast_natCast, h1, h2]
    linear_combination (-(s : ZMod c.g)) * K.negInvQg
  set r : ℤ := if c.g >>> 1 < a then (a : ℤ) - c.g else a with hr
  have hgr : c.g >>> 1 = c.g / 2 := by rw [Nat.shiftRight_eq_div_pow, pow_one]
  have hodd := H.godd
  have hr1 : -(c.g : ℤ) ≤ 2 * r ∧ 2 * r < c.g := by
    rw [hr, hgr]; split_ifs <;> constructor <;> omega
  have hdvd : (c.g : ℤ) ∣ s - r := by
    rw [← ZMod.intCast_zmod_eq_zero_iff_dvd, Int.cast_sub, ← hga, hr]
    split_ifs
    · push_cast; rw [ZMod.natCast_self]; ring
    · push_cast; ring
  obtain ⟨m, hm⟩ := hdvd
  rw [near_of_rem hg0 (show s = c.g * m + r by omega) hr1.1 hr1.2]
  set w := bitCeil c.k with hw
  have hkw : c.k ≤ w := le_bitCeil _
  have hk' := H.hi
  have hTb : (onT h w src : ZMod (2 ^ c.k)) = (s : ZMod (2 ^ c.k)) := by
    rw [onT_eq K hkw hk' src, ← hD]
    have h2 := congrArg (Int.cast : ℤ → ZMod (2 ^ c.k)) hsQ
    have h0 : ((2 : ZMod (2 ^ c.k)) ^ c.k) = 0 := by
      have : ((2 ^ c.k : ℕ) : ZMod (2 ^ c.k)) = 0 := ZMod.natCast_self _
      push_cast at this; exact this
    push_cast at h2
    rw [h0, mul_zero, zero_mul, zero_sub] at h2
    linear_combination (-(h.negInvQt : ZMod (2 ^ c.k))) * h2 - (s : ZMod (2 ^ c.k)) * K.negInvQt
  unfold down
  rw [K.ctx, guard_bind rfl]
  dsimp only
  rw [← ha]
  set b := onT h w src
  set W := max w 64 with hW
  have hkW : c.k ≤ W := hkw.trans (le_max_left _ _)
  have haW : a ≤ 2 ^ W := by
    have h1 : 2 ^ 64 ≤ 2 ^ W := Nat.pow_le_pow_right (by norm_num) (le_max_right _ _)
    have h2 := H.glt
    omega
  set d := if c.g >>> 1 < a then (b + c.g + (2 ^ W - a)) % 2 ^ W else (b + (2 ^ W - a)) % 2 ^ W with hd
  have hdr : (d : ZMod (2 ^ c.k)) = (s : ZMod (2 ^ c.k)) - (r : ZMod (2 ^ c.k)) := by
    rw [hd, hr, ← hTb]
    split_ifs
    · rw [cast_mod_pow hkW, Nat.cast_add, Nat.cast_add, cast_sub_pow hkW haW]; push_cast; ring
    · rw [cast_mod_pow hkW, Nat.cast_add, cast_sub_pow hkW haW]; push_cast; ring
  have hout : ((d * h.invGt % 2 ^ 128 &&& h.mask : ℕ) : ZMod (2 ^ c.k)) = (m : ZMod (2 ^ c.k)) := by
    rw [K.mask, msAndMask, cast_mod_pow le_rfl, cast_mod_pow hk', Nat.cast_mul, hdr]
    have h3 := congrArg (Int.cast : ℤ → ZMod (2 ^ c.k)) hm
    push_cast at h3
    rw [h3]
    linear_combination (m : ZMod (2 ^ c.k)) * K.invGt
  have hlt : (d * h.invGt % 2 ^ 128 &&& h.mask) < 2 ^ c.k := by
    rw [K.mask, msAndMask]; exact Nat.mod_lt _ (by positivity)
  congr 1
  rw [Nat.mod_eq_of_lt (hlt.trans_le (Nat.pow_le_pow_right (by norm_num) hkw))]
  generalize (d * h.invGt % 2 ^ 128 &&& h.mask) = y at hout hlt
  have h4 : ((y : ℤ) : ZMod (2 ^ c.k)) = (m : ZMod (2 ^ c.k)) := by rw [Int.cast_natCast]; exact hout
  have h5 := (ZMod.intCast_eq_intCast_iff' _ _ _).1 h4
  have h6 : ((2 ^ c.k : ℕ) : ℤ) = 2 ^ c.k := by push_cast; rfl
  rw [h6] at h5
  rw [← h5, Int.emod_eq_of_lt (by omega) (by rw [← h6]; exact_mod_cast hlt), Int.toNat_natCast]

/-- Outside a window of width `L / gamma` above the rounding boundary the result is the nearest integer. -/
theorem c58_down_exact {c : Ctx} (H : CtxOk c) {h : Helper} (hh : init c = some h) {src : ℕ → ℕ} {X : ℕ}
    (hs : ∀ l, l < c.L → src l % c.q l = X % c.q l)
    (hw : (c.L : ℚ) / c.g ≤ Int.fract ((2 : ℚ) ^ c.k * X / c.Q + 1 / 2)) :
    down h (bitCeil c.k) src = some ((near (2 ^ c.k * X / c.Q) % 2 ^ c.k).toNat) := by
  obtain ⟨δ, h0, h1, h2⟩ := c58_down H hh hs
  rw [h2]
  have : near ((2 : ℚ) ^ c.k * X / c.Q - δ) = near (2 ^ c.k * X / c.Q) := by
    generalize (2 : ℚ) ^ c.k * X / c.Q = y at *
    rw [near, near, Int.floor_eq_iff]
    have := Int.floor_add_fract (y + 1 / 2)
    have := Int.fract_lt_one (y + 1 / 2)
    constructor <;> linarith
  rw [this]

/-- Switching up and down again is the identity. -/
theorem c58_round_trip {c : Ctx} (H : CtxOk c) {h : Helper} (hh : init c = some h) {x : ℕ} (hx : x < 2 ^ c.k)
    (hf : ∀ l, l < c.L → UpFits c l) (hm : (2 : ℚ) ^ c.k / (2 * c.Q) + c.L / c.g < 1 / 2) {src : ℕ → ℕ}
    (hs : ∀ l, l < c.L → upAt h (bitCeil c.k) l x = some (src l)) :
    down h (bitCeil c.k) src = some x := by
  have hk0 : 0 < c.k := by have := H.lo; omega
  obtain ⟨X, hX⟩ : ∃ X : ℕ, near ((c.Q : ℚ) * x / 2 ^ c.k) = X := ⟨_, by rw [← Nat.cast_mul, near_div _ hk0]⟩
  have hsrc : ∀ l, l < c.L → src l % c.q l = X % c.q l := by
    intro l hl
    have h1 := hs l hl
    rw [c58_up H hh hl hx (hf l hl), hX, ← Int.natCast_mod, Int.toNat_natCast] at h1
    rw [← Option.some.inj h1, Nat.mod_mod]
  obtain ⟨δ, h0, h1, h2⟩ := c58_down H hh hsrc
  have hQ : (0 : ℚ) < c.Q := by exact_mod_cast Q_pos H
  have ht : (0 : ℚ) < 2 ^ c.k := by positivity
  have hX1 := Int.floor_le ((c.Q : ℚ) * x / 2 ^ c.k + 1 / 2)
  have hX2 := Int.lt_floor_add_one ((c.Q : ℚ) * x / 2 ^ c.k + 1 / 2)
  rw [near] at hX
  rw [hX, Int.cast_natCast] at hX1 hX2
  have e1 : (2 : ℚ) ^ c.k * X / c.Q ≤ x + 2 ^ c.k / (2 * c.Q) := by
    have : (X : ℚ) * 2 ^ c.k ≤ c.Q * x + 2 ^ c.k / 2 := by
      have := mul_le_mul_of_nonneg_right hX1 ht.le
      rw [add_mul, div_mul_cancel₀ _ ht.ne'] at this
      linarith
    rw [div_le_iff₀ hQ]
    have : ((x : ℚ) + 2 ^ c.k / (2 * c.Q)) * c.Q = c.Q * x + 2 ^ c.k / 2 := by field_simp
    linarith
  have e2 : x - 2 ^ c.k / (2 * c.Q) ≤ (2 : ℚ) ^ c.k * X / c.Q := by
    have : (c.Q : ℚ) * x - 2 ^ c.k / 2 ≤ X * 2 ^ c.k := by
      have := mul_lt_mul_of_pos_right hX2 ht
      rw [add_mul, div_mul_cancel₀ _ ht.ne'] at this
      linarith
    rw [le_div_iff₀ hQ]
    have : ((x : ℚ) - 2 ^ c.k / (2 * c.Q)) * c.Q = c.Q * x - 2 ^ c.k / 2 := by field_simp
    linarith
  have e3 : near ((2 : ℚ) ^ c.k * X / c.Q - δ) = x := by
    rw [near, Int.floor_eq_iff]
    push_cast
    constructor <;> linarith
  rw [h2, e3, Int.emod_eq_of_lt (by omega) (by exact_mod_cast hx), Int.toNat_natCast]

/-! ## The moduli of the program

The moduli are those that SEAL's search for the largest primes congruent to 1 modulo twice the degree finds
(recomputed outside Lean; the theorems hold for any moduli). -/

/-- A context from a list of moduli. -/
def ctxOf (k g : ℕ) (qs : List ℕ) : Ctx := ⟨k, qs.length, fun l => qs.getD l 1, g⟩

/-- A test for `CtxOk` and `UpFits` that can be evaluated. -/
def ctxTest (c : Ctx) : Bool :=
  decide (2 ≤ c.k ∧ c.k ≤ 128 ∧ 0 < c.L ∧ 1 < c.g ∧ c.g < 2 ^ 61 ∧ c.g % 2 = 1) &&
  (List.range c.L).all fun i => decide (1 < c.q i ∧ c.q i < 2 ^ 61 ∧ c.q i % 2 = 1 ∧ Nat.gcd (c.q i) c.g = 1) &&
    (List.range c.L).all fun j => decide (i = j ∨ Nat.gcd (c.q i) (c.q j) = 1)

theorem ctxTest_ok {c : Ctx} (h : ctxTest c = true) : CtxOk c := by
  simp only [ctxTest, Bool.and_eq_true, decide_eq_true_eq, List.all_eq_true, List.mem_range] at h
  obtain ⟨⟨a1, a2, a3, a4, a5, a6⟩, b⟩ := h
  exact ⟨a1, a2, a3, fun l hl => (b l hl).1.1, fun l hl => (b l hl).1.2.1, fun l hl => (b l hl).1.2.2.1,
    fun i hi j hj hij => ((b i hi).2 j hj).resolve_left hij, a4, a5, a6, fun l hl => (b l hl).1.2.2.2⟩

/-- cheetah_mul.cc:72, 124-130: the plain moduli of `CheetahMul`, 45 bits, for rings of 32, 64 and 128 bits. -/
def mulModuli : List ℕ := [35184371613697, 35184371417089, 35184371138561, 35184371089409, 35184370941953,
  35184370794497, 35184370352129]

/-- The same when errors in the last bit are allowed, 47 bits. -/
def mulModuliLsb : List ℕ := [140737488273409, 140737488125953, 140737488044033, 140737487306753, 140737487290369,
  140737487093761]

/-- cheetah_dot.cc:118-152, 276-279: the moduli for encoding a matrix, without the special prime. -/
def dotModuli32 : List ℕ := [576460752303415297, 137438822401]
def dotModuli64 : List ℕ := [576460752303210497, 36028797018652673, 562949952798721]
def dotModuli128 : List ℕ := [576460752301391873, 576460752301785089, 576460752302080001, 576460752302473217,
  562949952700417]

/-- Every set of moduli that the program encodes with. -/
def encodeCtxs : List Ctx := [
  ctxOf 32 2305843009213554689 (mulModuli.take 3), ctxOf 64 2305843009213554689 (mulModuli.take 4),
  ctxOf 128 2305843009213554689 (mulModuli.take 7), ctxOf 32 2305843009213554689 (mulModuliLsb.take 2),
  ctxOf 64 2305843009213554689 (mulModuliLsb.take 3), ctxOf 128 2305843009213554689 (mulModuliLsb.take 6),
  ctxOf 32 2305843009213616129 dotModuli32, ctxOf 64 2305843009213554689 dotModuli64,
  ctxOf 128 2305843009213317121 dotModuli128]

/-- The hypotheses of `c58_up`, `c58_down` and `c58_round_trip` hold for all moduli that the program encodes with. -/
theorem c58_moduli : ∀ c ∈ encodeCtxs, CtxOk c ∧ (∀ l, l < c.L → UpFits c l) ∧
    (2 : ℚ) ^ c.k / (2 * c.Q) + c.L / c.g < 1 / 2 := by
  have t : ∀ c ∈ encodeCtxs, ctxTest c = true ∧ (∀ l, l < c.L →
      c.Q % 2 ^ c.k + c.q l ≤ if c.k ≤ 64 then 2 ^ 64 else 2 ^ 128) ∧ 2 ^ c.k * 4 < c.Q ∧ c.L * 8 < c.g := by
    decide +kernel
  intro c hc
  obtain ⟨h1, h2, h3, h4⟩ := t c hc
  refine ⟨ctxTest_ok h1, h2, ?_⟩
  have hQ : (0 : ℚ) < c.Q := by exact_mod_cast lt_of_le_of_lt (Nat.zero_le _) h3
  have hg : (0 : ℚ) < c.g := by exact_mod_cast lt_of_le_of_lt (Nat.zero_le _) h4
  have h3' : (2 : ℚ) ^ c.k * 4 < c.Q := by exact_mod_cast h3
  have h4' : (c.L : ℚ) * 8 < c.g := by exact_mod_cast h4
  have e1 : (2 : ℚ) ^ c.k / (2 * c.Q) < 1 / 8 := by rw [div_lt_div_iff₀ (by positivity) (by norm_num)]; linarith
  have e2 : (c.L : ℚ) / c.g < 1 / 8 := by rw [div_lt_div_iff₀ hg (by norm_num)]; linarith
  linarith

/-- Three NTT-friendly primes of 60, 36 and 44 bits for degree 4096. -/
def badCtx : Ctx := ctxOf 64 2305843009213616129 [1152921504606830593, 68719403009, 17592186028033]

/-- Without `UpFits` the 64-bit sum of `ModulusUpAt` can wrap: `-1` is switched up to a wrong residue. -/
theorem c58_up_wraps : CtxOk badCtx ∧ ∃ h, init badCtx = some h ∧
    upAt h (bitCeil badCtx.k) 0 (2 ^ 64 - 1) ≠
      some ((near ((badCtx.Q : ℚ) * ((2 ^ 64 - 1 : ℕ) : ℚ) / 2 ^ badCtx.k) % (badCtx.q 0 : ℤ)).toNat) := by
  have H : CtxOk badCtx := ctxTest_ok (by decide +kernel)
  obtain ⟨h, hh, K⟩ := init_ok H
  refine ⟨H, h, hh, ?_⟩
  rw [← Nat.cast_mul, near_div _ (by decide)]
  unfold upAt
  rw [K.ctx, guard_bind rfl, guard_bind (by decide), K.QmodT, K.tHalf, K.QdivT 0 (by decide)]
  have hb : bitCeil badCtx.k = 64 := by
    show 2 ^ Nat.clog 2 64 = 64
    rw [show (64 : ℕ) = 2 ^ 6 by norm_num, Nat.clog_pow 2 6 (by norm_num)]
  rw [hb]
  decide +kernel

/-! ## Examples -/

/-- Small moduli: `Q = 97 * 101 = 9797`, `t = 2^4`. -/
def smallCtx : Ctx := ctxOf 4 127 [97, 101]

example : CtxOk smallCtx := ctxTest_ok (by decide +kernel)

example : (init smallCtx).isSome := by
  obtain ⟨h, hh, _⟩ := init_ok (c := smallCtx) (ctxTest_ok (by decide +kernel))
  rw [hh]; rfl

example {h : Helper} (hh : init smallCtx = some h) {src : ℕ → ℕ}
    (hs : ∀ l, l < 2 → upAt h (bitCeil 4) l 11 = some (src l)) : down h (bitCeil 4) src = some 11 :=
  c58_round_trip (c := smallCtx) (ctxTest_ok (by decide +kernel)) hh (by decide)
    (by unfold UpFits; decide +kernel)
    (by rw [show smallCtx.Q = 9797 by decide +kernel]; simp only [smallCtx, ctxOf, List.length]; norm_num) hs

example : inv2k 8 77 = some 133 := by decide +kernel

example : CtxOk (ctxOf 64 2305843009213554689 (mulModuli.take 4)) :=
  (c58_moduli _ (by simp [encodeCtxs])).1

example : near ((9797 : ℚ) * 11 / 2 ^ 4) = 6735 := by rw [near]; norm_num

example : centred 4 11 = -5 ∧ centred 4 8 = 8 := by decide

end Spu.Props

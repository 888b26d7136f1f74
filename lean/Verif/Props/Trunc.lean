import Verif.Model.Trunc
import Verif.Lemmas.Share
import Verif.Lemmas.Word
import Verif.Props.Semi2k
import Mathlib.Order.Interval.Finset.Basic
import Mathlib.Data.Int.Interval
import Mathlib.Tactic.IntervalCases
import Mathlib.Tactic.LinearCombination

set_option autoImplicit false
set_option linter.unusedSectionVars false

/-!
# C23, C24, C44: truncation of additive shares

`X.toInt` is the signed value of a word, `X.toInt / 2^k` the quotient rounded down
(`Int` division rounds towards `-∞` for a positive divisor), `-(-X.toInt / 2^k)` the quotient
rounded up.  `total` is the shared secret.
-/

namespace Spu.Props

open Spu.Model Spu.Model.Semi2k Spu.Spec Spu.Lemmas

variable {n : ℕ} [NeZero n] {w : ℕ}

/-- no wrap-around: the signed difference between one party's share and the secret stays in
the signed range of the word -/
def NoWrap (X x0 : BitVec w) : Prop :=
  -2 ^ (w - 1) ≤ x0.toInt - X.toInt ∧ x0.toInt - X.toInt < 2 ^ (w - 1)

theorem neg_ediv_eq (X m : ℤ) (hm : 0 < m) :
    -(-X / m) = X / m + (if X % m = 0 then 0 else 1) := by
  have h := add_ediv_carry X (-X) m hm
  have h1 := Int.emod_nonneg X hm.ne'
  have h2 := Int.emod_lt_of_pos X hm
  have h3 := Int.emod_nonneg (-X) hm.ne'
  have h4 := Int.emod_lt_of_pos (-X) hm
  rw [add_neg_cancel, Int.zero_ediv] at h
  by_cases hx : X % m = 0
  · have : (-X) % m = 0 := Int.emod_eq_zero_of_dvd ((dvd_neg).mpr (Int.dvd_of_emod_eq_zero hx))
    rw [if_neg (by omega)] at h
    rw [if_pos hx]; omega
  · have : (X % m + -X % m) % m = 0 := by
      rw [← Int.add_emod, add_neg_cancel, Int.zero_emod]
    rw [if_pos ?_] at h
    · rw [if_neg hx]; omega
    · by_contra hc
      rw [Int.emod_eq_of_lt (by omega) (by omega)] at this
      omega

/-- rounding a signed word down or up after a division stays in range -/
theorem quot_range (X : BitVec w) (k : ℕ) :
    (-2 ^ (w - 1) ≤ X.toInt / 2 ^ k ∧ X.toInt / 2 ^ k < 2 ^ (w - 1)) ∧
    (-2 ^ (w - 1) ≤ -(-X.toInt / 2 ^ k) ∧ -(-X.toInt / 2 ^ k) < 2 ^ (w - 1)) := by
  obtain ⟨h1, h2⟩ := toInt_bounds X
  have hp : (0 : ℤ) < 2 ^ k := by positivity
  have hp1 : (1 : ℤ) ≤ 2 ^ k := hp
  have hq : (1 : ℤ) ≤ 2 ^ (w - 1) := by
    have : (0 : ℤ) < 2 ^ (w - 1) := by positivity
    omega
  refine ⟨⟨?_, ?_⟩, ?_, ?_⟩
  · rw [Int.le_ediv_iff_mul_le hp]; nlinarith
  · rw [Int.ediv_lt_iff_lt_mul hp]; nlinarith
  · rw [neg_le_neg_iff, Int.ediv_le_iff_le_mul hp]; nlinarith
  · have : -2 ^ (w - 1) + 1 ≤ -X.toInt / 2 ^ k := by
      rw [Int.le_ediv_iff_mul_le hp]; nlinarith
    linarith

theorem sub_toInt_of_range (hw : 0 < w) (a b : BitVec w) (h1 : -2 ^ (w - 1) ≤ a.toInt - b.toInt)
    (h2 : a.toInt - b.toInt < 2 ^ (w - 1)) : (a - b).toInt = a.toInt - b.toInt := by
  have : a - b = BitVec.ofInt w (a.toInt - b.toInt) := by
    rw [ofInt_sub, BitVec.ofInt_toInt, BitVec.ofInt_toInt]
  rw [this, toInt_ofInt_of_range hw h1 h2]

/-- C23: two-party local truncation.  Unless the first share wraps, the opened result is the
signed secret divided by `2^k`, rounded down or rounded up (so exact if divisible). -/
theorem c23_two_party (hw : 0 < w) (x : Fin 2 → BitVec w) (k : ℕ) (h : NoWrap (total x) (x 0)) :
    (total (truncA2 x k)).toInt = (total x).toInt / 2 ^ k ∨
    (total (truncA2 x k)).toInt = -(-(total x).toInt / 2 ^ k) := by
  set X := total x with hX
  have hp : (0 : ℤ) < 2 ^ k := by positivity
  have hx1 : -(x 1) = x 0 - X := by
    rw [hX, total, Fin.sum_univ_two]; ring
  have hb : (-(x 1)).toInt = (x 0).toInt - X.toInt := by
    rw [hx1]; exact sub_toInt_of_range hw _ _ h.1 h.2
  have ht : total (truncA2 x k) =
      BitVec.ofInt w ((x 0).toInt / 2 ^ k - ((x 0).toInt - X.toInt) / 2 ^ k) := by
    rw [total, Fin.sum_univ_two]
    simp only [truncA2, if_true, Fin.isValue, one_ne_zero, if_false]
    rw [sshiftRight_eq, sshiftRight_eq, hb, ofInt_sub]; ring
  have hc := add_ediv_carry ((x 0).toInt - X.toInt) X.toInt (2 ^ k) hp
  rw [sub_add_cancel] at hc
  have hq : (x 0).toInt / 2 ^ k - ((x 0).toInt - X.toInt) / 2 ^ k = X.toInt / 2 ^ k ∨
      (x 0).toInt / 2 ^ k - ((x 0).toInt - X.toInt) / 2 ^ k = -(-X.toInt / 2 ^ k) := by
    rw [hc, neg_ediv_eq _ _ hp]
    by_cases hd : X.toInt % 2 ^ k = 0
    · left
      have := Int.emod_lt_of_pos ((x 0).toInt - X.toInt) hp
      rw [if_neg (by omega)]; ring
    · rw [if_neg hd]
      split_ifs
      · right; ring
      · left; ring
  obtain ⟨⟨r1, r2⟩, r3, r4⟩ := quot_range X k
  rw [ht]
  rcases hq with hq | hq <;> rw [hq]
  · left; exact toInt_ofInt_of_range hw r1 r2
  · right; exact toInt_ofInt_of_range hw r3 r4

example : NoWrap (total ![(100#16), 200#16]) 100#16 ∧
    (total (truncA2 ![(100#16), 200#16] 3)).toInt = 300 / 2 ^ 3 := by
  unfold NoWrap; decide +kernel

example : NoWrap (total ![(0x8100#16), 0x7e01#16]) 0x8100#16 ∧
    (total ![(0x8100#16), 0x7e01#16]).toInt = -255 := by
  unfold NoWrap; decide +kernel

/-- C23: among all `2^w` first shares (enumerated by their signed value `a`), exactly `|X|`
wrap. -/
theorem c23_wrap_count (hw : 0 < w) (X : BitVec w) :
    ((Finset.Ico (-2 ^ (w - 1) : ℤ) (2 ^ (w - 1))).filter
      (fun a => ¬ (-2 ^ (w - 1) ≤ (BitVec.ofInt w a).toInt - X.toInt ∧
        (BitVec.ofInt w a).toInt - X.toInt < 2 ^ (w - 1)))).card = X.toInt.natAbs := by
  obtain ⟨h1, h2⟩ := toInt_bounds X
  set M : ℤ := 2 ^ (w - 1) with hM
  have hset : (Finset.Ico (-M) M).filter
      (fun a => ¬ (-M ≤ (BitVec.ofInt w a).toInt - X.toInt ∧
        (BitVec.ofInt w a).toInt - X.toInt < M)) =
      (if 0 ≤ X.toInt then Finset.Ico (-M) (-M + X.toInt) else Finset.Ico (M + X.toInt) M) := by
    ext a
    rw [Finset.mem_filter, Finset.mem_Ico]
    constructor
    · rintro ⟨⟨ha1, ha2⟩, ha3⟩
      rw [toInt_ofInt_of_range hw ha1 ha2] at ha3
      split_ifs <;> rw [Finset.mem_Ico] <;> omega
    · intro h
      have : -M ≤ a ∧ a < M := by
        split_ifs at h <;> rw [Finset.mem_Ico] at h <;> omega
      refine ⟨this, ?_⟩
      rw [toInt_ofInt_of_range hw this.1 this.2]
      split_ifs at h <;> rw [Finset.mem_Ico] at h <;> omega
  rw [hset]
  split_ifs <;> rw [Int.card_Ico] <;> omega

/-- every word is enumerated exactly once by its signed value, so the count above is a count
of shares -/
theorem c23_shares_enumerated (hw : 0 < w) (x : BitVec w) :
    ∃! a : ℤ, a ∈ Finset.Ico (-2 ^ (w - 1) : ℤ) (2 ^ (w - 1)) ∧ BitVec.ofInt w a = x := by
  refine ⟨x.toInt, ⟨Finset.mem_Ico.mpr (toInt_bounds x), BitVec.ofInt_toInt⟩, ?_⟩
  rintro a ⟨ha, rfl⟩
  rw [Finset.mem_Ico] at ha
  exact (toInt_ofInt_of_range hw ha.1 ha.2).symm

/-- C23: with more parties a valid truncation pair gives the quotient rounded down or one less,
unless `X - R` wraps. -/
theorem c23_many_party (hw : 0 < w) (x r rb : Fin n → BitVec w) (k : ℕ)
    (hpair : total rb = (total r).sshiftRight k)
    (h : -2 ^ (w - 1) ≤ (total x).toInt - (total r).toInt ∧
      (total x).toInt - (total r).toInt < 2 ^ (w - 1)) :
    total (truncAN x r rb k) = BitVec.ofInt w ((total x).toInt / 2 ^ k) ∨
    (total (truncAN x r rb k) = BitVec.ofInt w ((total x).toInt / 2 ^ k - 1)) := by
  have hp : (0 : ℤ) < 2 ^ k := by positivity
  have ht : total (truncAN x r rb k) =
      BitVec.ofInt w ((total r).toInt / 2 ^ k + ((total x).toInt - (total r).toInt) / 2 ^ k) := by
    have e : truncAN x r rb k = fun i => if i = 0 then rb i +
        (fun i => (allReduce (· + ·) (fun j => x j - r j) i).sshiftRight k) i else rb i := rfl
    rw [e, total_ite_add, allReduce_add, total_sub, hpair, sshiftRight_eq, sshiftRight_eq,
      sub_toInt_of_range hw _ _ h.1 h.2, BitVec.ofInt_add]
  have hc := add_ediv_carry (total r).toInt ((total x).toInt - (total r).toInt) (2 ^ k) hp
  rw [add_sub_cancel] at hc
  rw [ht, hc]
  split_ifs
  · right; congr 1; ring
  · left; congr 1; ring

example : ∃ (x r rb : Fin 3 → BitVec 16), total rb = (total r).sshiftRight 3 ∧
    (-2 ^ (16 - 1) ≤ (total x).toInt - (total r).toInt ∧
      (total x).toInt - (total r).toInt < 2 ^ (16 - 1)) ∧ (total x).toInt = -77 :=
  ⟨![65000, 536, -77], ![1, 2, 1000], ![5, 6, 114], by decide +kernel⟩

theorem low_bits (hw : 2 ≤ w) (c : BitVec w) (m : ℕ) :
    (c <<< 1) >>> (1 + m) = BitVec.ofInt w (((c.toNat % 2 ^ (w - 1)) / 2 ^ m : ℕ) : ℤ) := by
  rw [ushiftRight_eq, BitVec.toNat_shiftLeft, Nat.shiftLeft_eq, pow_one]
  congr 2
  obtain ⟨v, rfl⟩ : ∃ v, w = v + 1 := ⟨w - 1, by omega⟩
  rw [Nat.add_sub_cancel, pow_succ, Nat.mul_mod_mul_right, pow_add, pow_one, ← Nat.div_div_eq_div_mul,
    Nat.mul_div_cancel _ (by norm_num)]

/-- C24: probabilistic truncation.  For every secret in the documented range
`[-2^(w-2), 2^(w-2))`, any number of parties, any sharing, any mask `R` with a valid triple:
the result is the quotient rounded down, plus one exactly when the low bits of the secret and of
the mask carry. -/
theorem c24_truncPr (hw : 2 ≤ w) (x r rc rb : Fin n → BitVec w) (m : ℕ) (hm : m ≤ w - 2)
    (hrc : total rc = (total r <<< 1) >>> (m + 1)) (hrb : total rb = total r >>> (w - 1))
    (hlo : -2 ^ (w - 2) ≤ (total x).toInt) (hhi : (total x).toInt < 2 ^ (w - 2)) :
    total (truncAPr x r rc rb m) = BitVec.ofInt w ((total x).toInt / 2 ^ m +
      (if (total x).toInt % 2 ^ m + ((total r).toNat % 2 ^ m : ℕ) ≥ 2 ^ m then 1 else 0)) := by
  obtain ⟨t, rfl⟩ : ∃ t, w = m + t + 2 := ⟨w - 2 - m, by omega⟩
  set X := total x with hX
  set R := total r with hR
  have s1 : m + t + 2 - 1 = m + t + 1 := by omega
  have s2 : m + t + 2 - 2 = m + t := by omega
  have s3 : m + t + 2 - 1 - m = t + 1 := by omega
  have s4 : m + t + 2 - 2 - m = t := by omega
  rw [s2] at hlo hhi
  -- the opened value
  obtain ⟨c, hc⟩ : ∃ c, c = X + ((1 : BitVec (m + t + 2)) <<< (m + t)) + R := ⟨_, rfl⟩
  have hopen : ∀ i, allReduce (· + ·) (fun j : Fin n =>
      (if j = 0 then x j + ((1 : BitVec (m + t + 2)) <<< (m + t)) else x j) + r j) i = c := by
    intro i
    rw [allReduce_add, total_add, hc, hX, hR]
    congr 1
    exact total_ite_add 0 x (fun _ => (1 : BitVec (m + t + 2)) <<< (m + t))
  -- sum of the outputs
  have ht : total (truncAPr x r rc rb m) =
      (c <<< 1) >>> (1 + m) - total rc +
        (total rb + c >>> (m + t + 1) - 2 * (c >>> (m + t + 1)) * total rb) *
          BitVec.ofInt _ (2 ^ (t + 1)) - BitVec.ofInt _ (2 ^ t) := by
    have e : truncAPr x r rc rb m = fun i => if i = 0 then
        ((rb i - (2 : BitVec (m + t + 2)) * (c >>> (m + t + 1)) * rb i) * BitVec.ofInt _ (2 ^ (t + 1)) - rc i) +
          (fun _ => (c <<< 1) >>> (1 + m) + (c >>> (m + t + 1)) * BitVec.ofInt _ (2 ^ (t + 1)) -
            BitVec.ofInt _ (2 ^ t)) i
        else (rb i - (2 : BitVec (m + t + 2)) * (c >>> (m + t + 1)) * rb i) * BitVec.ofInt _ (2 ^ (t + 1)) - rc i := by
      funext i
      simp only [truncAPr, s2, hopen, s1]
      simp only [show m + t + 1 - m = t + 1 by omega, show m + t - m = t by omega,
        shiftLeft_eq_mul _ (t + 1), ← ofInt_pow]
      split_ifs <;> ring
    rw [e, total_ite_add, total_sub, total_mul_right, total_sub, total_mul_left]
    ring
  -- integers
  set r1 : ℕ := R.toNat / 2 ^ (m + t + 1) with hr1
  set r0 : ℕ := R.toNat % 2 ^ (m + t + 1) with hr0
  have hRn : R.toNat = 2 ^ (m + t + 1) * r1 + r0 := (Nat.div_add_mod _ _).symm
  have hRlt : R.toNat < 2 ^ (m + t + 2) := R.isLt
  have hr0lt : r0 < 2 ^ (m + t + 1) := Nat.mod_lt _ (by positivity)
  have hr1lt : r1 < 2 := by
    rw [hr1, Nat.div_lt_iff_lt_mul (by positivity), ← pow_succ']; exact hRlt
  obtain ⟨X', hX'⟩ : ∃ X' : ℕ, (X' : ℤ) = X.toInt + 2 ^ (m + t) :=
    ⟨(X.toInt + 2 ^ (m + t)).toNat, Int.toNat_of_nonneg (by linarith)⟩
  have hX'lt : X' < 2 ^ (m + t + 1) := by
    have : (X' : ℤ) < 2 ^ (m + t + 1) := by rw [hX', pow_succ]; linarith
    exact_mod_cast this
  set s1' : ℕ := (X' + r0) / 2 ^ (m + t + 1) with hs1
  set s0 : ℕ := (X' + r0) % 2 ^ (m + t + 1) with hs0
  have hS : X' + r0 = 2 ^ (m + t + 1) * s1' + s0 := (Nat.div_add_mod _ _).symm
  have hs0lt : s0 < 2 ^ (m + t + 1) := Nat.mod_lt _ (by positivity)
  have hs1lt : s1' < 2 := by
    rw [hs1, Nat.div_lt_iff_lt_mul (by positivity)]; omega
  -- the opened value splits into its top bit and low part
  have hcInt : c = BitVec.ofInt _ (2 ^ (m + t + 1) * ((r1 + s1') % 2 : ℕ) + s0) := by
    rw [hc, ← ofInt_pow]
    rw [← BitVec.ofInt_toInt (x := X), ← ofInt_toNat R, ← BitVec.ofInt_add, ← BitVec.ofInt_add]
    apply ofInt_congr
    rw [← hX', hRn]
    have hS' : (X' : ℤ) + r0 = 2 ^ (m + t + 1) * s1' + s0 := by exact_mod_cast hS
    have hd : ((r1 + s1' : ℕ) : ℤ) = 2 * (((r1 + s1') / 2 : ℕ) : ℤ) + (((r1 + s1') % 2 : ℕ) : ℤ) := by
      exact_mod_cast (Nat.div_add_mod _ _).symm
    refine ⟨(((r1 + s1') / 2 : ℕ) : ℤ), ?_⟩
    push_cast at hd ⊢
    linear_combination hS' + 2 ^ (m + t + 1) * hd
  have hcn : c.toNat = 2 ^ (m + t + 1) * ((r1 + s1') % 2) + s0 := by
    have := toNat_eq_of_range hcInt (by positivity) (by
      have h1 : ((r1 + s1') % 2 : ℕ) ≤ 1 := by omega
      have : (2 ^ (m + t + 1) * ((r1 + s1') % 2) + s0 : ℕ) < 2 ^ (m + t + 2) := by
        have e2 : 2 ^ (m + t + 2) = 2 ^ (m + t + 1) * 2 := pow_succ _ _
        nlinarith
      exact_mod_cast this)
    exact_mod_cast this
  have hchi : c.toNat / 2 ^ (m + t + 1) = (r1 + s1') % 2 := by
    rw [hcn, Nat.mul_add_div (by positivity), Nat.div_eq_of_lt hs0lt, add_zero]
  have hclo : c.toNat % 2 ^ (m + t + 1) = s0 := by
    rw [hcn, Nat.mul_add_mod, Nat.mod_eq_of_lt hs0lt]
  have hrb' : total rb = BitVec.ofInt _ (r1 : ℤ) := by rw [hrb, s1, ushiftRight_eq]
  have hck : c >>> (m + t + 1) = BitVec.ofInt _ (((r1 + s1') % 2 : ℕ) : ℤ) := by
    rw [ushiftRight_eq, hchi]
  have hrc' : total rc = BitVec.ofInt _ ((r0 / 2 ^ m : ℕ) : ℤ) := by
    rw [hrc, add_comm m 1, low_bits hw, s1]
  have hch : (c <<< 1) >>> (1 + m) = BitVec.ofInt _ ((s0 / 2 ^ m : ℕ) : ℤ) := by
    rw [low_bits hw, s1, hclo]
  -- xor of the two bits
  have hb : (r1 : ℤ) + ((r1 + s1') % 2 : ℕ) - 2 * ((r1 + s1') % 2 : ℕ) * r1 = s1' := by
    interval_cases r1 <;> interval_cases s1' <;> norm_num
  have htwo : (2 : BitVec (m + t + 2)) = BitVec.ofInt _ 2 := by
    rfl
  rw [ht, hch, hrc', hrb', hck, htwo, ← BitVec.ofInt_mul, ← BitVec.ofInt_mul, ← BitVec.ofInt_add,
    ← ofInt_sub, ← ofInt_sub, hb, ← BitVec.ofInt_mul, ← BitVec.ofInt_add, ← ofInt_sub]
  congr 1
  have hp : (0 : ℤ) < 2 ^ m := by positivity
  -- floor arithmetic
  have hsplit : ((s0 / 2 ^ m : ℕ) : ℤ) + s1' * 2 ^ (t + 1) = ((X' + r0) / 2 ^ m : ℕ) := by
    have : 2 ^ (m + t + 1) * s1' = 2 ^ m * (2 ^ (t + 1) * s1') := by
      rw [add_assoc, pow_add]; ring
    rw [hS, this, Nat.mul_add_div (by positivity)]
    push_cast; ring
  have hcarry := add_ediv_carry (X' : ℤ) (r0 : ℤ) (2 ^ m) hp
  have hX'div : (X' : ℤ) / 2 ^ m = X.toInt / 2 ^ m + 2 ^ t := by
    rw [hX', pow_add, Int.add_mul_ediv_left _ _ hp.ne']
  have hX'mod : (X' : ℤ) % 2 ^ m = X.toInt % 2 ^ m := by
    rw [hX', pow_add, Int.add_mul_emod_self_left]
  have hr0mod : (r0 : ℤ) % 2 ^ m = ((R.toNat % 2 ^ m : ℕ) : ℤ) := by
    rw [hr0]
    have : (R.toNat % 2 ^ (m + t + 1)) % 2 ^ m = R.toNat % 2 ^ m :=
      Nat.mod_mod_of_dvd _ (pow_dvd_pow 2 (by omega))
    rw [← this]; push_cast; rfl
  rw [hX'mod, hr0mod, hX'div] at hcarry
  push_cast at hsplit hcarry ⊢
  linear_combination hsplit + hcarry

/-- C24: in particular the error is at most one unit, and none if `2^m` divides the secret. -/
theorem c24_truncPr_error (hw : 2 ≤ w) (x r rc rb : Fin n → BitVec w) (m : ℕ) (hm : m ≤ w - 2)
    (hrc : total rc = (total r <<< 1) >>> (m + 1)) (hrb : total rb = total r >>> (w - 1))
    (hlo : -2 ^ (w - 2) ≤ (total x).toInt) (hhi : (total x).toInt < 2 ^ (w - 2)) :
    (total (truncAPr x r rc rb m) = BitVec.ofInt w ((total x).toInt / 2 ^ m) ∨
     total (truncAPr x r rc rb m) = BitVec.ofInt w ((total x).toInt / 2 ^ m + 1)) ∧
    (((2 : ℤ) ^ m) ∣ (total x).toInt →
      total (truncAPr x r rc rb m) = BitVec.ofInt w ((total x).toInt / 2 ^ m)) := by
  have h := c24_truncPr hw x r rc rb m hm hrc hrb hlo hhi
  constructor
  · rw [h]; split_ifs
    · right; rfl
    · left; rw [add_zero]
  · intro hd
    rw [h, Int.emod_eq_zero_of_dvd hd, if_neg, add_zero]
    have : (total r).toNat % 2 ^ m < 2 ^ m := Nat.mod_lt _ (by positivity)
    have : (((total r).toNat % 2 ^ m : ℕ) : ℤ) < 2 ^ m := by exact_mod_cast this
    omega

example : ∃ (x r rc rb : Fin 3 → BitVec 16), total rc = (total r <<< 1) >>> (4 + 1) ∧
    total rb = total r >>> (16 - 1) ∧ -2 ^ (16 - 2) ≤ (total x).toInt ∧
    (total x).toInt < 2 ^ (16 - 2) ∧ (total x).toInt = -1001 ∧
    (total (truncAPr x r rc rb 4)).toInt = -62 :=
  ⟨![40000, 25536, -1001], ![50000, 2, 1000], ![1140, 2, -3], ![5, 6, -10], by decide +kernel⟩

theorem b2w_eq {v : ℕ} (p : Prop) [Decidable p] :
    (b2w (decide p) : BitVec v) = BitVec.ofInt v (if p then 1 else 0) := by
  unfold b2w
  by_cases h : p <;> simp [h]

/-- the wrap count: the shares of a secret in `[-2^(w-2), 2^(w-2))`, as unsigned numbers, add up
to the signed secret plus `M * 2^w`, and the parties obtain shares of that `M` -/
theorem computeMW_spec {v : ℕ} (hw : 2 ≤ w) (x : Fin 2 → BitVec w) (a c : Fin 2 → BitVec v)
    (hac : c 0 + c 1 = a 0 * a 1)
    (hlo : -2 ^ (w - 2) ≤ (total x).toInt) (hhi : (total x).toInt < 2 ^ (w - 2)) :
    ∃ M : ℤ, ((x 0).toNat : ℤ) + (x 1).toNat = (total x).toInt + M * 2 ^ w ∧
      total (computeMW x a c) = BitVec.ofInt v M := by
  obtain ⟨Q, hQ⟩ : ∃ Q : ℕ, Q = 2 ^ (w - 2) := ⟨_, rfl⟩
  have hQ4 : 2 ^ w = 4 * Q := by
    rw [hQ]; obtain ⟨t, rfl⟩ : ∃ t, w = t + 2 := ⟨w - 2, by omega⟩
    rw [Nat.add_sub_cancel, pow_add]; ring
  have hQ4z : (2 : ℤ) ^ w = 4 * Q := by exact_mod_cast hQ4
  have hQz : (2 : ℤ) ^ (w - 2) = Q := by rw [hQ]; push_cast; rfl
  have hQpos : 0 < Q := by rw [hQ]; positivity
  have hdvd : (2 : ℤ) ^ w ∣ ((x 0).toNat : ℤ) + (x 1).toNat - (total x).toInt := by
    have h1 : (total x).toNat = ((x 0).toNat + (x 1).toNat) % 2 ^ w := by
      rw [total, Fin.sum_univ_two, BitVec.toNat_add]
    have h2 := BitVec.toInt_eq_toNat_bmod (total x)
    rw [h2, h1]
    have h3 : ((((x 0).toNat + (x 1).toNat) % 2 ^ w : ℕ) : ℤ) % ((2 ^ w : ℕ) : ℤ) =
      ((((x 0).toNat + (x 1).toNat : ℕ)) : ℤ) % ((2 ^ w : ℕ) : ℤ) := by
      push_cast; exact Int.emod_emod _ _
    have h4 := Int.bmod_emod (x := ((((x 0).toNat + (x 1).toNat) % 2 ^ w : ℕ) : ℤ)) (m := 2 ^ w)
    rw [h3] at h4
    have := Int.emod_eq_emod_iff_emod_sub_eq_zero.mp h4.symm
    have := Int.dvd_of_emod_eq_zero this
    push_cast at this ⊢
    exact this
  obtain ⟨M, hM⟩ := hdvd
  refine ⟨M, by linarith, ?_⟩
  have hL4 : ((1 : BitVec w) <<< (w - 2)).toNat = Q := by
    rw [BitVec.toNat_shiftLeft, Nat.shiftLeft_eq, hQ4, ← hQ]
    have : (1 : BitVec w).toNat = 1 := by
      have : 1 < 2 ^ w := by omega
      simpa using Nat.mod_eq_of_lt this
    rw [this, one_mul, Nat.mod_eq_of_lt (by omega)]
  have hL2 : (((1 : BitVec w) <<< (w - 2)) <<< 1).toNat = 2 * Q := by
    rw [BitVec.toNat_shiftLeft, hL4, Nat.shiftLeft_eq, hQ4, Nat.mod_eq_of_lt (by omega)]; ring
  have h0 := (x 0).isLt
  have h1 := (x 1).isLt
  rw [hQ4] at h0 h1
  rw [hQz] at hlo hhi
  rw [hQ4z] at hM
  have hsub : (x 0 - (1 : BitVec w) <<< (w - 2)).toNat = (4 * Q - Q + (x 0).toNat) % (4 * Q) := by
    rw [BitVec.toNat_sub, hL4, hQ4]
  have hstar : total (computeMW x a c) = BitVec.ofInt v
      ((if (x 0).toNat < Q ∨ 3 * Q ≤ (x 0).toNat then 1 else 0) *
        (if 2 * Q ≤ (x 1).toNat then 1 else 0) + (1 - if (x 0).toNat < Q then 1 else 0)) := by
    have hm := c20_mul_private (fun i => if i = 0 then
        (b2w (decide ((x i - (1 : BitVec w) <<< (w - 2)) ≥ ((1 : BitVec w) <<< (w - 2)) <<< 1)) : BitVec v)
        else b2w (decide (x i ≥ ((1 : BitVec w) <<< (w - 2)) <<< 1))) a c hac
    have e : computeMW x a c = fun i => if i = 0 then mulVVS (fun i => if i = 0 then
        (b2w (decide ((x i - (1 : BitVec w) <<< (w - 2)) ≥ ((1 : BitVec w) <<< (w - 2)) <<< 1)) : BitVec v)
        else b2w (decide (x i ≥ ((1 : BitVec w) <<< (w - 2)) <<< 1))) a c i +
          (fun i => 1 - b2w (decide (x i < (1 : BitVec w) <<< (w - 2)))) i else
        mulVVS (fun i => if i = 0 then
        (b2w (decide ((x i - (1 : BitVec w) <<< (w - 2)) ≥ ((1 : BitVec w) <<< (w - 2)) <<< 1)) : BitVec v)
        else b2w (decide (x i ≥ ((1 : BitVec w) <<< (w - 2)) <<< 1))) a c i := rfl
    rw [e, total_ite_add, hm]
    simp only [if_true, Fin.isValue, one_ne_zero, if_false, b2w_eq, ge_iff_le, BitVec.le_def,
      BitVec.lt_def, hL4, hL2, hsub]
    have hif : (2 * Q ≤ (4 * Q - Q + (x 0).toNat) % (4 * Q)) ↔
        ((x 0).toNat < Q ∨ 3 * Q ≤ (x 0).toNat) := by
      by_cases h : (x 0).toNat < Q
      · rw [Nat.mod_eq_of_lt (by omega)]; omega
      · rw [Nat.mod_eq_sub_mod (by omega), Nat.mod_eq_of_lt (by omega)]; omega
    simp only [hif]
    rw [BitVec.ofInt_add, BitVec.ofInt_mul, ofInt_sub]
    rfl
  rw [hstar]
  congr 1
  have hM0 : 0 ≤ M := by nlinarith
  have hM2 : M ≤ 2 := by nlinarith
  interval_cases M <;> split_ifs <;> omega

/-- C24: two-party truncation with wrap correction.  For every secret in the documented range
and every sharing and dealer correlation the result is the quotient rounded down, or that plus
one (minus the carry of the low bits of the two shares). -/
theorem c24_truncPr2 {v : ℕ} (hw : 2 ≤ w) (x : Fin 2 → BitVec w) (a c : Fin 2 → BitVec v)
    (bits : ℕ) (hb : bits ≤ w) (hv : bits ≤ v) (hac : c 0 + c 1 = a 0 * a 1)
    (hlo : -2 ^ (w - 2) ≤ (total x).toInt) (hhi : (total x).toInt < 2 ^ (w - 2)) :
    total (truncAPr2 x a c bits) = BitVec.ofInt w ((total x).toInt / 2 ^ bits + 1 -
      (if (x 0).toNat % 2 ^ bits + (x 1).toNat % 2 ^ bits ≥ 2 ^ bits then 1 else 0)) := by
  obtain ⟨M, hM, hMW⟩ := computeMW_spec hw x a c hac hlo hhi
  set mw := computeMW x a c with hmw
  have hp : (0 : ℤ) < 2 ^ bits := by positivity
  -- the shares of the wrap count as integers
  obtain ⟨T, hT⟩ : ∃ T : ℤ, ((mw 0).toNat : ℤ) + (mw 1).toNat = M + T * 2 ^ v := by
    have h1 : BitVec.ofInt v (((mw 0).toNat : ℤ) + (mw 1).toNat) = BitVec.ofInt v M := by
      rw [BitVec.ofInt_add, ofInt_toNat, ofInt_toNat, ← hMW, total, Fin.sum_univ_two]
    have h2 := congrArg BitVec.toNat h1
    rw [BitVec.toNat_ofInt, BitVec.toNat_ofInt] at h2
    have hpos : ((2 ^ v : ℕ) : ℤ) ≠ 0 := by positivity
    have h3 : (((mw 0).toNat : ℤ) + (mw 1).toNat) % ((2 ^ v : ℕ) : ℤ) = M % ((2 ^ v : ℕ) : ℤ) := by
      have e1 := Int.emod_nonneg (((mw 0).toNat : ℤ) + (mw 1).toNat) hpos
      have e2 := Int.emod_nonneg M hpos
      omega
    obtain ⟨T, hT⟩ := Int.dvd_of_emod_eq_zero (Int.emod_eq_emod_iff_emod_sub_eq_zero.mp h3)
    refine ⟨T, ?_⟩
    push_cast at hT
    linarith
  have hsw : ∀ i, (mw i).setWidth w = BitVec.ofInt w ((mw i).toNat : ℤ) := by
    intro i
    rw [BitVec.ofInt_natCast]
    apply BitVec.eq_of_toNat_eq
    simp
  have ht : total (truncAPr2 x a c bits) = BitVec.ofInt w
      ((((x 0).toNat / 2 ^ bits : ℕ) : ℤ) - (mw 0).toNat * 2 ^ (w - bits) + 0 +
       ((((x 1).toNat / 2 ^ bits : ℕ) : ℤ) - (mw 1).toNat * 2 ^ (w - bits) + 1)) := by
    rw [total, Fin.sum_univ_two]
    simp only [truncAPr2, ← hmw, hsw, ushiftRight_eq, ← ofInt_pow]
    rw [BitVec.ofInt_add, BitVec.ofInt_add, BitVec.ofInt_add, ofInt_sub, ofInt_sub, BitVec.ofInt_mul,
      BitVec.ofInt_mul]
    rfl
  rw [ht]
  have hc := add_ediv_carry ((x 0).toNat : ℤ) ((x 1).toNat : ℤ) (2 ^ bits) hp
  have hsum : ((x 0).toNat + (x 1).toNat : ℤ) / 2 ^ bits =
      (total x).toInt / 2 ^ bits + M * 2 ^ (w - bits) := by
    rw [hM]
    have : (2 : ℤ) ^ w = 2 ^ bits * 2 ^ (w - bits) := by rw [← pow_add]; congr 1; omega
    rw [this, show M * ((2 : ℤ) ^ bits * 2 ^ (w - bits)) = 2 ^ bits * (M * 2 ^ (w - bits)) by ring,
      Int.add_mul_ediv_left _ _ hp.ne']
  have hif : (((x 0).toNat : ℤ) % 2 ^ bits + ((x 1).toNat : ℤ) % 2 ^ bits ≥ 2 ^ bits) ↔
      ((x 0).toNat % 2 ^ bits + (x 1).toNat % 2 ^ bits ≥ 2 ^ bits) := by
    rw [ge_iff_le, ge_iff_le, ← Int.ofNat_le]; push_cast; rfl
  simp only [hif] at hc
  apply ofInt_congr
  refine ⟨-(T * 2 ^ (v - bits)), ?_⟩
  have hpow : (2 : ℤ) ^ v * 2 ^ (w - bits) = 2 ^ w * 2 ^ (v - bits) := by
    rw [← pow_add, ← pow_add]; congr 1; omega
  push_cast
  linear_combination hsum - hc - 2 ^ (w - bits) * hT - T * hpow

/-- C24: hence the error is at most one unit.  The kernel shifts by `bits` and by `w - bits`, which is
defined only for `0 < bits < w`. -/
theorem c24_truncPr2_error {v : ℕ} (hw : 2 ≤ w) (x : Fin 2 → BitVec w) (a c : Fin 2 → BitVec v)
    (bits : ℕ) (_h0 : 0 < bits) (hb : bits < w) (hv : truncFieldWidth bits = some v) (hac : c 0 + c 1 = a 0 * a 1)
    (hlo : -2 ^ (w - 2) ≤ (total x).toInt) (hhi : (total x).toInt < 2 ^ (w - 2)) :
    total (truncAPr2 x a c bits) = BitVec.ofInt w ((total x).toInt / 2 ^ bits) ∨
    total (truncAPr2 x a c bits) = BitVec.ofInt w ((total x).toInt / 2 ^ bits + 1) := by
  have hv' : bits ≤ v := by
    unfold truncFieldWidth at hv
    split_ifs at hv <;> simp at hv <;> omega
  rw [c24_truncPr2 hw x a c bits hb.le hv' hac hlo hhi]
  split_ifs
  · left; congr 1; ring
  · right; congr 1; ring

example : ∃ (x : Fin 2 → BitVec 64) (a c : Fin 2 → BitVec 32), truncFieldWidth 18 = some 32 ∧
    c 0 + c 1 = a 0 * a 1 ∧ -2 ^ (64 - 2) ≤ (total x).toInt ∧ (total x).toInt < 2 ^ (64 - 2) ∧
    (total x).toInt = -262145 * 5 ∧ (total (truncAPr2 x a c 18)).toInt = -5 :=
  ⟨![0x123456789abcdef0, -0x123456789abcdef0 - 262145 * 5], ![5, 7], ![100, -65],
    by decide +kernel⟩

/-- C44: the jointly sampled value of `n` parties is below `n * 2^(w-2)`: for one party it is in
the promised range.  Missing: the promised range for two or more parties, which is false
(`c44_out_of_range`). -/
theorem c44_rand_range_partial (hw : 2 ≤ w) (priv : Fin 1 → BitVec w) :
    -2 ^ (w - 2) ≤ (total (randA priv)).toInt ∧ (total (randA priv)).toInt < 2 ^ (w - 2) := by
  have hlt : (priv 0).toNat / 2 ^ 2 < 2 ^ (w - 2) := by
    rw [Nat.div_lt_iff_lt_mul (by norm_num), ← pow_add, Nat.sub_add_cancel hw]
    exact (priv 0).isLt
  have hltz : (((priv 0).toNat / 2 ^ 2 : ℕ) : ℤ) < 2 ^ (w - 2) := by exact_mod_cast hlt
  have hle : (2 : ℤ) ^ (w - 2) ≤ 2 ^ (w - 1) := pow_le_pow_right₀ (by norm_num) (by omega)
  have ht : total (randA priv) = BitVec.ofInt w (((priv 0).toNat / 2 ^ 2 : ℕ) : ℤ) := by
    rw [total, Fin.sum_univ_one, randA, ushiftRight_eq]
  have hnn : (0 : ℤ) ≤ (((priv 0).toNat / 2 ^ 2 : ℕ) : ℤ) := Int.natCast_nonneg _
  have hp : (0 : ℤ) < 2 ^ (w - 2) := by positivity
  have hp1 : (0 : ℤ) < 2 ^ (w - 1) := by positivity
  rw [ht, toInt_ofInt_of_range (by omega) (by omega) (by omega)]
  omega

example : -2 ^ (64 - 2) ≤ (total (randA ![(0xfedcba9876543210#64)])).toInt :=
  (c44_rand_range_partial (by norm_num) _).1

/-- C44 is false of the code: two parties drawing all-ones words open to a value outside
`[-2^(w-2), 2^(w-2))`, at every width of at least 4 bits. -/
theorem c44_out_of_range (hw : 4 ≤ w) :
    ¬ (total (randA (fun _ : Fin 2 => BitVec.allOnes w))).toInt < 2 ^ (w - 2) := by
  obtain ⟨t, rfl⟩ : ∃ t, w = t + 4 := ⟨w - 4, by omega⟩
  have hd : (BitVec.allOnes (t + 4)).toNat / 2 ^ 2 = 4 * 2 ^ t - 1 := by
    rw [BitVec.toNat_allOnes, pow_add]; omega
  have hp : (0 : ℤ) < 2 ^ t := by positivity
  have hpn : 0 < 2 ^ t := by positivity
  have ht : total (randA (fun _ : Fin 2 => BitVec.allOnes (t + 4))) =
      BitVec.ofInt (t + 4) (8 * 2 ^ t - 2) := by
    rw [total, Fin.sum_univ_two]
    simp only [randA, ushiftRight_eq, hd]
    rw [← BitVec.ofInt_add]
    congr 1
    rw [Nat.cast_sub (by omega)]
    push_cast; ring
  have e1 : t + 4 - 1 = t + 3 := by omega
  have e2 : t + 4 - 2 = t + 2 := by omega
  rw [ht, toInt_ofInt_of_range (by omega) (by rw [e1, pow_add]; omega) (by rw [e1, pow_add]; omega), e2,
    pow_add]
  omega

end Spu.Props

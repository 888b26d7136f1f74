import Verif.Model.CheetahZip
import Mathlib.Tactic.Ring
import Mathlib.Tactic.Linarith

set_option autoImplicit false

/-!
# C51: bit packing loses nothing and opening packed shares opens the shares
-/

namespace Spu.Props
open Spu.Model.CheetahZip Spu.Model.Waksman

variable {w : ℕ}

theorem zipMask_bit {nbits : ℕ} (h1 : 0 < nbits) (h2 : nbits ≤ w) :
    ∃ m, makeBitsMask w nbits = some m ∧ ∀ b, m.getLsbD b = decide (b < nbits) := by
  unfold makeBitsMask
  have hz : (if nbits = 0 then w else nbits) = nbits := if_neg (by omega)
  simp only [hz, if_pos h2]
  refine ⟨_, rfl, fun b => ?_⟩
  split
  · rename_i h
    have : (1 : BitVec w) <<< nbits - 1 = BitVec.ofNat w (2 ^ nbits - 1) := by
      apply BitVec.eq_of_toNat_eq
      have hp : 2 ^ nbits < 2 ^ w := Nat.pow_lt_pow_right (by omega) h
      have h1w : 1 % 2 ^ w = 1 := Nat.mod_eq_of_lt (Nat.one_lt_two_pow (by omega))
      have : 0 < 2 ^ nbits := by positivity
      simp only [BitVec.toNat_sub, BitVec.toNat_shiftLeft, BitVec.toNat_ofNat, BitVec.ofNat_eq_ofNat, h1w, Nat.shiftLeft_eq, Nat.one_mul]
      rw [Nat.mod_eq_of_lt hp, Nat.mod_eq_of_lt (a := 2 ^ nbits - 1) (by omega)]
      rw [show 2 ^ w - 1 + 2 ^ nbits = (2 ^ nbits - 1) + 2 ^ w by omega, Nat.add_mod_right, Nat.mod_eq_of_lt (by omega)]
    rw [this, BitVec.getLsbD_ofNat, Nat.testBit_two_pow_sub_one]
    by_cases hb : b < nbits
    · simp [hb]; omega
    · simp [hb]
  · rename_i h
    rw [BitVec.getLsbD_allOnes, show w = nbits by omega]

/-- bit `p` of the stream of words `a` -/
def streamBit (a : ℕ → BitVec w) (p : ℕ) : Bool := (a (p / w)).getLsbD (p % w)

theorem zipStep_bit (hw : 0 < w) {bw : ℕ} (hb : bw ≤ w) {mask : BitVec w} (hm : ∀ b, mask.getLsbD b = decide (b < bw)) (inp oup : ℕ → BitVec w)
    (i p : ℕ) : streamBit (zipStep bw mask inp oup i) p =
      (streamBit oup p || (decide (i * bw ≤ p) && decide (p < i * bw + bw) && (inp i).getLsbD (p - i * bw))) := by
  have e1 := Nat.div_add_mod p w
  have e2 := Nat.div_add_mod (i * bw) w
  have l1 := Nat.mod_lt p hw
  have l2 := Nat.mod_lt (i * bw) hw
  unfold streamBit zipStep
  generalize hq : p / w = q at *
  generalize hr : p % w = r at *
  generalize hp0 : i * bw / w = p0 at *
  generalize hs0 : i * bw % w = s0 at *
  generalize i * bw = t at *
  by_cases c : s0 + bw > w
  · simp only [if_pos c]
    by_cases h1 : q = p0 + 1
    · subst h1
      have : w * (p0 + 1) = w * p0 + w := by ring
      have e : p - t = w - s0 + r := by omega
      simp only [upd, if_true, Nat.succ_ne_self, if_false, BitVec.getLsbD_or, BitVec.getLsbD_ushiftRight, BitVec.getLsbD_and, hm, e]
      have a1 : t ≤ p := by omega
      by_cases a2 : p < t + bw
      · have a3 : w - s0 + r < bw := by omega
        simp [a1, a2, a3]
      · have a3 : ¬ w - s0 + r < bw := by omega
        simp [a1, a2, a3]
    · simp only [upd, if_neg h1]
      by_cases h2 : q = p0
      · subst h2
        simp only [if_true, BitVec.getLsbD_or, BitVec.getLsbD_shiftLeft, BitVec.getLsbD_and, hm]
        by_cases a1 : t ≤ p
        · have e : p - t = r - s0 := by omega
          simp only [e]
          by_cases a2 : p < t + bw
          · have : r - s0 < bw := by omega
            have h5 : ¬ r < s0 := by omega
            simp [a1, a2, l1, this, h5]
          · have : ¬ r - s0 < bw := by omega
            simp [a1, a2, this]
        · have : r < s0 := by omega
          simp [a1, this]
      · simp only [if_neg h2]
        have : ¬(t ≤ p ∧ p < t + bw) := by
          rintro ⟨a, b⟩
          have hmul : w * q + r < w * (p0 + 2) := by
            have : w * (p0 + 2) = w * p0 + w + w := by ring
            omega
          have h3 : q < p0 + 2 := by
            by_contra hc
            have := Nat.mul_le_mul_left w (show p0 + 2 ≤ q by omega)
            omega
          have h4 : p0 ≤ q := by
            by_contra hc
            have := Nat.mul_le_mul_left w (show q + 1 ≤ p0 by omega)
            have : w * (q + 1) = w * q + w := by ring
            omega
          omega
        by_cases a1 : t ≤ p <;> by_cases a2 : p < t + bw <;> simp [a1, a2]
        exact absurd ⟨a1, a2⟩ this
  · simp only [if_neg c]
    by_cases h2 : q = p0
    · subst h2
      simp only [upd, if_true, BitVec.getLsbD_or, BitVec.getLsbD_shiftLeft, BitVec.getLsbD_and, hm]
      by_cases a1 : t ≤ p
      · have e : p - t = r - s0 := by omega
        simp only [e]
        by_cases a2 : p < t + bw
        · have : r - s0 < bw := by omega
          have h5 : ¬ r < s0 := by omega
          simp [a1, a2, l1, this, h5]
        · have : ¬ r - s0 < bw := by omega
          simp [a1, a2, this]
      · have : r < s0 := by omega
        simp [a1, this]
    · simp only [upd, if_neg h2]
      have : ¬(t ≤ p ∧ p < t + bw) := by
        rintro ⟨a, b⟩
        have h3 : q < p0 + 1 := by
          by_contra hc
          have := Nat.mul_le_mul_left w (show p0 + 1 ≤ q by omega)
          have : w * (p0 + 1) = w * p0 + w := by ring
          omega
        have h4 : p0 ≤ q := by
          by_contra hc
          have := Nat.mul_le_mul_left w (show q + 1 ≤ p0 by omega)
          have : w * (q + 1) = w * q + w := by ring
          omega
        omega
      by_cases a1 : t ≤ p <;> by_cases a2 : p < t + bw <;> simp [a1, a2]
      exact absurd ⟨a1, a2⟩ this

theorem zipFold_bit (hw : 0 < w) {bw : ℕ} (h0 : 0 < bw) (hb : bw ≤ w) {mask : BitVec w} (hm : ∀ b, mask.getLsbD b = decide (b < bw)) (inp : ℕ → BitVec w)
    (n p : ℕ) : streamBit ((List.range n).foldl (zipStep bw mask inp) fun _ => 0) p =
      (decide (p < n * bw) && (inp (p / bw)).getLsbD (p % bw)) := by
  induction n with
  | zero => simp [streamBit]
  | succ n ih =>
    rw [List.range_succ, List.foldl_append, List.foldl_cons, List.foldl_nil, zipStep_bit hw hb hm, ih]
    by_cases a1 : p < n * bw
    · have : ¬ n * bw ≤ p := by omega
      have : p < (n + 1) * bw := by rw [Nat.succ_mul]; omega
      simp [*]
    · by_cases a2 : p < n * bw + bw
      · have h1 : p / bw = n := by
          have hc := Nat.mul_comm bw n
          rw [Nat.div_eq_iff h0]
          omega
        have h2 : p % bw = p - n * bw := by
          have := Nat.div_add_mod p bw
          rw [h1, Nat.mul_comm] at this
          omega
        have h3 : p < (n + 1) * bw := by rw [Nat.succ_mul]; omega
        have : n * bw ≤ p := by omega
        simp [*]
      · have h3 : ¬ p < (n + 1) * bw := by rw [Nat.succ_mul]; omega
        simp [*]

theorem unzipAt_bit (hw : 0 < w) {bw : ℕ} (hb : bw ≤ w) {mask : BitVec w} (hm : ∀ b, mask.getLsbD b = decide (b < bw)) (inp : ℕ → BitVec w)
    (i b : ℕ) : (unzipAt bw mask inp i).getLsbD b = (decide (b < bw) && streamBit inp (i * bw + b)) := by
  have e1 := Nat.div_add_mod (i * bw + b) w
  have e2 := Nat.div_add_mod (i * bw) w
  have l1 := Nat.mod_lt (i * bw + b) hw
  have l2 := Nat.mod_lt (i * bw) hw
  unfold streamBit unzipAt
  generalize hq : (i * bw + b) / w = q at *
  generalize hr : (i * bw + b) % w = r at *
  generalize hp0 : i * bw / w = p0 at *
  generalize hs0 : i * bw % w = s0 at *
  generalize i * bw = t at *
  dsimp only
  rw [BitVec.getLsbD_and, hm]
  by_cases c : b < bw
  swap
  · simp [c]
  simp only [c, decide_true, Bool.and_true, Bool.true_and]
  have hq' : (q = p0 ∧ r = s0 + b) ∨ (q = p0 + 1 ∧ r + w = s0 + b) := by
    have h3 : q < p0 + 2 := by
      by_contra hc
      have := Nat.mul_le_mul_left w (show p0 + 2 ≤ q by omega)
      have : w * (p0 + 2) = w * p0 + w + w := by ring
      omega
    have h4 : p0 ≤ q := by
      by_contra hc
      have := Nat.mul_le_mul_left w (show q + 1 ≤ p0 by omega)
      have : w * (q + 1) = w * q + w := by ring
      omega
    rcases Nat.lt_or_ge q (p0 + 1) with h | h
    · have : q = p0 := by omega
      subst this
      left; omega
    · have : q = p0 + 1 := by omega
      subst this
      have : w * (p0 + 1) = w * p0 + w := by ring
      right; omega
  rcases hq' with ⟨rfl, rfl⟩ | ⟨rfl, h⟩
  · split
    · rw [BitVec.getLsbD_or, BitVec.getLsbD_ushiftRight, BitVec.getLsbD_shiftLeft]
      have : b < w - s0 := by omega
      simp [this]
    · rw [BitVec.getLsbD_ushiftRight]
  · rw [if_pos (by omega), BitVec.getLsbD_or, BitVec.getLsbD_ushiftRight, BitVec.getLsbD_shiftLeft]
    have h1 : (inp p0).getLsbD (s0 + b) = false := BitVec.getLsbD_of_ge _ _ (by omega)
    have h2 : ¬ b < w - s0 := by omega
    have h3 : b < w := by omega
    have h4 : b - (w - s0) = r := by omega
    simp [h1, h2, h3, h4]

theorem le_unzip {bw n : ℕ} (hw : 0 < w) (h0 : 0 < bw) : n ≤ ceilDiv (n * bw) w * w / bw := by
  rw [Nat.le_div_iff_mul_le h0]
  unfold ceilDiv
  have := Nat.div_add_mod (n * bw + w - 1) w
  have l := Nat.mod_lt (n * bw + w - 1) hw
  rw [Nat.mul_comm w] at this
  omega

theorem streamBit_mul (hw : 0 < w) {bw : ℕ} (h0 : 0 < bw) {i b : ℕ} (hb : b < bw) : (i * bw + b) / bw = i ∧ (i * bw + b) % bw = b := by
  constructor
  · rw [Nat.add_comm, Nat.add_mul_div_right _ _ h0, Nat.div_eq_of_lt hb]; omega
  · rw [Nat.add_comm, Nat.add_mul_mod_self_right, Nat.mod_eq_of_lt hb]

theorem zipArray_eq {bw n cap : ℕ} (h0 : 0 < bw) (hb : bw ≤ w) (hc : ceilDiv (n * bw) w ≤ cap) {m : BitVec w} (hm : makeBitsMask w bw = some m)
    (inp : ℕ → BitVec w) : zipArray bw n inp cap = some ((List.range n).foldl (zipStep bw m inp) (fun _ => 0), ceilDiv (n * bw) w) := by
  unfold zipArray
  simp only [h0, hb, hc, hm, and_self, if_true, Option.map_some]

theorem unzipArray_eq {bw n k : ℕ} (h0 : 0 < bw) (hb : bw ≤ w) (hn : 0 < n) (hk : n ≤ k * w / bw) {m : BitVec w} (hm : makeBitsMask w bw = some m)
    (inp : ℕ → BitVec w) : unzipArray bw k inp n = some (unzipAt bw m inp) := by
  unfold unzipArray
  simp only [h0, hb, hn, hk, hm, and_self, if_true, Option.map_some]

/-- C51: unpacking what was packed gives every element back, cut to the bit width. -/
theorem c51_zip_unzip {bw n : ℕ} (h0 : 0 < bw) (hb : bw ≤ w) (hn : 0 < n) (inp : ℕ → BitVec w) {cap : ℕ} (hc : ceilDiv (n * bw) w ≤ cap) :
    ∃ z o, zipArray bw n inp cap = some (z, ceilDiv (n * bw) w) ∧ unzipArray bw (ceilDiv (n * bw) w) z n = some o ∧
      ∀ i, i < n → o i = BitVec.ofNat w ((inp i).toNat % 2 ^ bw) := by
  have hw : 0 < w := by omega
  obtain ⟨m, hm, hbit⟩ := zipMask_bit (w := w) h0 hb
  refine ⟨_, _, zipArray_eq h0 hb hc hm inp, unzipArray_eq h0 hb hn (le_unzip hw h0) hm _, fun i hi => ?_⟩
  apply BitVec.eq_of_getLsbD_eq
  intro b hbw
  rw [unzipAt_bit hw hb hbit, zipFold_bit hw h0 hb hbit, BitVec.getLsbD_ofNat, Nat.testBit_mod_two_pow]
  by_cases c : b < bw
  · obtain ⟨d1, d2⟩ := streamBit_mul hw h0 (i := i) c
    have : i * bw + b < n * bw := by
      have := Nat.mul_le_mul_right bw (show i + 1 ≤ n by omega)
      rw [Nat.succ_mul] at this
      omega
    simp [d1, d2, c, this, hbw, BitVec.getLsbD]
  · simp [c]

/-- C51: no write of the packing loop leaves the packed words. -/
theorem c51_zip_in_bounds {bw n i : ℕ} (h0 : 0 < bw) (hb : bw ≤ w) (hi : i < n) :
    i * bw / w < ceilDiv (n * bw) w ∧ (i * bw % w + bw > w → i * bw / w + 1 < ceilDiv (n * bw) w) := by
  have hw : 0 < w := by omega
  have e2 := Nat.div_add_mod (i * bw) w
  have l2 := Nat.mod_lt (i * bw) hw
  have := Nat.mul_le_mul_right bw (show i + 1 ≤ n by omega)
  rw [Nat.succ_mul] at this
  unfold ceilDiv
  rw [Nat.mul_comm] at e2
  constructor
  · rw [Nat.lt_iff_add_one_le, Nat.le_div_iff_mul_le hw, Nat.add_mul]; omega
  · intro h
    rw [Nat.lt_iff_add_one_le, Nat.le_div_iff_mul_le hw, Nat.add_mul, Nat.add_mul]; omega

/-- C51: opening exclusive-or shares gives the exclusive or, cut to the declared bits. -/
theorem c51_open_xor {nbits n : ℕ} (hb : nbits ≤ w) (hw : 0 < w) (hn : 0 < n) (x : Fin 2 → ℕ → BitVec w) :
    ∃ o, openShare .xor nbits n x = some o ∧
      ∀ i, i < n → o i = BitVec.ofNat w ((x 0 i ^^^ x 1 i).toNat % 2 ^ (if nbits = 0 then w else nbits)) := by
  obtain ⟨nb, hnb⟩ : ∃ nb, nb = if nbits = 0 then w else nbits := ⟨_, rfl⟩
  have h0 : 0 < nb := by rw [hnb]; split <;> omega
  have h1 : nb ≤ w := by rw [hnb]; split <;> omega
  obtain ⟨m, hm, hbit⟩ := zipMask_bit (w := w) h0 h1
  unfold openShare
  rw [← hnb]
  have h2 : ¬(nb > nb ∧ w % nb ≠ 0) := by omega
  simp only [if_pos h1, if_neg h2, zipArray_eq h0 h1 le_rfl hm, Option.bind_some, and_self, if_true, unzipArray_eq h0 h1 hn (le_unzip hw h0) hm, Option.map_some]
  refine ⟨_, rfl, fun i hi => ?_⟩
  rw [if_neg (by omega)]
  apply BitVec.eq_of_getLsbD_eq
  intro b hbw
  rw [unzipAt_bit hw h1 hbit]
  have hx : ∀ a c : ℕ → BitVec w, ∀ p, streamBit (fun i => a i ^^^ c i) p = (streamBit a p ^^ streamBit c p) := fun a c p => by simp [streamBit]
  rw [hx, zipFold_bit hw h0 h1 hbit, zipFold_bit hw h0 h1 hbit, BitVec.getLsbD_ofNat, Nat.testBit_mod_two_pow]
  by_cases c : b < nb
  · obtain ⟨d1, d2⟩ := streamBit_mul hw h0 (i := i) c
    have : i * nb + b < n * nb := by
      have := Nat.mul_le_mul_right nb (show i + 1 ≤ n by omega)
      rw [Nat.succ_mul] at this
      omega
    simp [d1, d2, c, this, hbw, BitVec.getLsbD]
  · simp [c]

/-! ### Opening sums: every slot has a spare bit -/

theorem slots_add {A B k nb : ℕ} (hA : A % 2 ^ (k * (nb + 1)) + B % 2 ^ (k * (nb + 1)) < 2 ^ (k * (nb + 1)))
    (hA1 : A / 2 ^ (k * (nb + 1)) % 2 ^ (nb + 1) < 2 ^ nb) (hB1 : B / 2 ^ (k * (nb + 1)) % 2 ^ (nb + 1) < 2 ^ nb) :
    (A + B) / 2 ^ (k * (nb + 1)) % 2 ^ (nb + 1) = A / 2 ^ (k * (nb + 1)) % 2 ^ (nb + 1) + B / 2 ^ (k * (nb + 1)) % 2 ^ (nb + 1) := by
  have hd : (A + B) / 2 ^ (k * (nb + 1)) = A / 2 ^ (k * (nb + 1)) + B / 2 ^ (k * (nb + 1)) := by
    rw [Nat.add_div (by positivity), if_neg (by omega)]
    rfl
  rw [hd, Nat.add_mod, Nat.mod_eq_of_lt]
  rw [Nat.pow_succ] at *
  omega

/-- the top bit of every slot below `k` is clear, so the slots below `k` of two words add without leaving them -/
theorem slots_low {A k nb : ℕ} (h : ∀ j, j < k → A / 2 ^ (j * (nb + 1)) % 2 ^ (nb + 1) < 2 ^ nb) :
    2 * (A % 2 ^ (k * (nb + 1))) < 2 ^ (k * (nb + 1)) ∨ k = 0 := by
  rcases k with _ | k
  · right; rfl
  · left
    have h1 := h k (by omega)
    rw [show (k + 1) * (nb + 1) = k * (nb + 1) + (nb + 1) by ring, Nat.pow_add, Nat.mod_mul]
    have h2 : A % 2 ^ (k * (nb + 1)) < 2 ^ (k * (nb + 1)) := Nat.mod_lt _ (by positivity)
    have h3 : 2 ^ (k * (nb + 1)) * (A / 2 ^ (k * (nb + 1)) % 2 ^ (nb + 1)) ≤ 2 ^ (k * (nb + 1)) * (2 ^ nb - 1) := Nat.mul_le_mul_left _ (by omega)
    have h4 : 2 ^ (k * (nb + 1)) * (2 ^ nb - 1) = 2 ^ (k * (nb + 1)) * 2 ^ nb - 2 ^ (k * (nb + 1)) := by rw [Nat.mul_sub, Nat.mul_one]
    have h5 : 2 ^ (k * (nb + 1)) * 2 ^ (nb + 1) = 2 * (2 ^ (k * (nb + 1)) * 2 ^ nb) := by rw [Nat.pow_succ]; ring
    have h6 : 0 < 2 ^ nb := by positivity
    have h7 : 2 ^ (k * (nb + 1)) ≤ 2 ^ (k * (nb + 1)) * 2 ^ nb := Nat.le_mul_of_pos_right _ h6
    omega

theorem zip_slot (hw : 0 < w) {S c : ℕ} (h0 : 0 < S) (hc : w = S * c) {mask : BitVec w} (hm : ∀ b, mask.getLsbD b = decide (b < S))
    (inp : ℕ → BitVec w) (n a : ℕ) {j : ℕ} (hj : j < c) {nb : ℕ} (hS : S = nb + 1) (hx : ∀ i, i < n → (inp i).toNat < 2 ^ nb) :
    let z := (List.range n).foldl (zipStep S mask inp) fun _ => 0
    (z a).toNat / 2 ^ (j * S) % 2 ^ S = if a * c + j < n then (inp (a * c + j)).toNat else 0 := by
  have hb : S ≤ w := by rw [hc]; exact Nat.le_mul_of_pos_right _ (by omega)
  dsimp only
  apply Nat.eq_of_testBit_eq
  intro b
  rw [Nat.testBit_mod_two_pow, Nat.testBit_div_two_pow]
  by_cases hbS : b < S
  · have hin : b + j * S < w := by
      have := Nat.mul_le_mul_right S (show j + 1 ≤ c by omega)
      rw [Nat.succ_mul] at this
      rw [hc, Nat.mul_comm S c]; omega
    have hz := zipFold_bit hw h0 hb hm inp n (a * w + (b + j * S))
    unfold streamBit at hz
    rw [show (a * w + (b + j * S)) / w = a by rw [Nat.add_comm, Nat.add_mul_div_right _ _ hw, Nat.div_eq_of_lt hin]; omega,
      show (a * w + (b + j * S)) % w = b + j * S by rw [Nat.add_comm, Nat.add_mul_mod_self_right, Nat.mod_eq_of_lt hin]] at hz
    have e : a * w + (b + j * S) = (a * c + j) * S + b := by rw [hc]; ring
    obtain ⟨d1, d2⟩ := streamBit_mul hw h0 (i := a * c + j) hbS
    rw [e, d1, d2] at hz
    have hz' : ((List.foldl (zipStep S mask inp) (fun _ => 0) (List.range n)) a).toNat.testBit (b + j * S) =
        (decide ((a * c + j) * S + b < n * S) && (inp (a * c + j)).toNat.testBit b) := hz
    rw [hz']
    simp only [hbS, decide_true, Bool.true_and]
    by_cases hn : a * c + j < n
    · have : (a * c + j) * S + b < n * S := by
        have := Nat.mul_le_mul_right S (show a * c + j + 1 ≤ n by omega)
        rw [Nat.succ_mul] at this
        omega
      simp [hn, this]
    · have : ¬ (a * c + j) * S + b < n * S := by
        have := Nat.mul_le_mul_right S (show n ≤ a * c + j by omega)
        omega
      simp [hn, this]
  · simp only [hbS, decide_false, Bool.false_and]
    split
    · rename_i hn
      symm
      apply Nat.testBit_lt_two_pow
      exact lt_of_lt_of_le (hx _ hn) (Nat.pow_le_pow_right (by omega) (by omega))
    · simp

/-- C51: opening additive shares whose words are within the declared bits gives the sum, cut to the declared bits. -/
theorem c51_open_add {nbits n : ℕ} (h0 : 0 < nbits) (hb : nbits ≤ w) (hn : 0 < n) (x : Fin 2 → ℕ → BitVec w)
    (hx : ∀ p i, i < n → (x p i).toNat < 2 ^ nbits) :
    ∃ o, openShare .add nbits n x = some o ∧ ∀ i, i < n → o i = BitVec.ofNat w ((x 0 i + x 1 i).toNat % 2 ^ nbits) := by
  have hw : 0 < w := by omega
  obtain ⟨m, hm, hbit⟩ := zipMask_bit (w := w) h0 hb
  have hmask : ∀ (v : BitVec w), v &&& m = BitVec.ofNat w (v.toNat % 2 ^ nbits) := by
    intro v
    apply BitVec.eq_of_getLsbD_eq
    intro b hbw
    rw [BitVec.getLsbD_and, hbit, BitVec.getLsbD_ofNat, Nat.testBit_mod_two_pow]
    simp [hbw, BitVec.getLsbD, Bool.and_comm]
  unfold openShare
  have hz : (if nbits = 0 then w else nbits) = nbits := if_neg (by omega)
  simp only [hz, if_pos hb]
  by_cases hd : w % (nbits + 1) = 0
  swap
  · rw [if_pos ⟨by omega, hd⟩, hm]
    refine ⟨_, rfl, fun i _ => hmask _⟩
  · have h1 : nbits + 1 ≤ w := Nat.le_of_dvd hw (Nat.dvd_of_mod_eq_zero hd)
    obtain ⟨c, hc⟩ := Nat.dvd_of_mod_eq_zero hd
    obtain ⟨m2, hm2, hbit2⟩ := zipMask_bit (w := w) (nbits := nbits + 1) (by omega) h1
    rw [if_neg (by omega), zipArray_eq (by omega) h1 le_rfl hm2, zipArray_eq (by omega) h1 le_rfl hm2]
    simp only [Option.bind_some, and_self, if_true, unzipArray_eq (show 0 < nbits + 1 by omega) h1 hn (le_unzip hw (by omega)) hm2, Option.map_some]
    refine ⟨_, rfl, fun i hi => ?_⟩
    rw [if_pos (by omega)]
    have hcp : 0 < c := by
      rcases c with _ | c
      · omega
      · omega
    have hme : (1 : BitVec w) <<< nbits - 1 = m := by
      unfold makeBitsMask at hm
      simp only [hz, if_pos hb, if_pos (show nbits < w by omega)] at hm
      exact Option.some.inj hm
    rw [hme, hmask]
    obtain ⟨Z, hZ⟩ : ∃ Z : Fin 2 → ℕ → BitVec w, Z = fun p => (List.range n).foldl (zipStep (nbits + 1) m2 (x p)) fun _ => 0 := ⟨_, rfl⟩
    have hk : i % c < c := Nat.mod_lt _ hcp
    have hik : i / c * c + i % c = i := by rw [Nat.mul_comm]; exact Nat.div_add_mod i c
    have slot : ∀ p j, j < c → (Z p (i / c)).toNat / 2 ^ (j * (nbits + 1)) % 2 ^ (nbits + 1) =
        if i / c * c + j < n then (x p (i / c * c + j)).toNat else 0 := fun p j hj => by
      rw [hZ]
      exact zip_slot hw (by omega) hc hbit2 (x p) n (i / c) hj rfl fun i hi => hx p i hi
    have small : ∀ p j, j < c → (Z p (i / c)).toNat / 2 ^ (j * (nbits + 1)) % 2 ^ (nbits + 1) < 2 ^ nbits := fun p j hj => by
      rw [slot p j hj]
      split
      · exact hx _ _ ‹_›
      · positivity
    have low : (Z 0 (i / c)).toNat % 2 ^ (i % c * (nbits + 1)) + (Z 1 (i / c)).toNat % 2 ^ (i % c * (nbits + 1)) < 2 ^ (i % c * (nbits + 1)) := by
      rcases slots_low (A := (Z 0 (i / c)).toNat) (k := i % c) (nb := nbits) (fun j hj => small 0 j (by omega)) with l0 | l0
      · rcases slots_low (A := (Z 1 (i / c)).toNat) (k := i % c) (nb := nbits) (fun j hj => small 1 j (by omega)) with l1 | l1
        · omega
        · rw [l1]; simp [Nat.mod_one]
      · rw [l0]; simp [Nat.mod_one]
    have key := slots_add low (small 0 _ hk) (small 1 _ hk)
    rw [slot 0 _ hk, slot 1 _ hk, hik, if_pos hi, if_pos hi] at key
    have hin : i % c * (nbits + 1) + (nbits + 1) ≤ w := by
      have := Nat.mul_le_mul_right (nbits + 1) (show i % c + 1 ≤ c by omega)
      rw [Nat.succ_mul] at this
      rw [hc, Nat.mul_comm (nbits + 1) c]; exact this
    have hval : (unzipAt (nbits + 1) m2 (fun i => Z 0 i + Z 1 i) i).toNat = (x 0 i).toNat + (x 1 i).toNat := by
      rw [← key]
      apply Nat.eq_of_testBit_eq
      intro b
      have := unzipAt_bit hw h1 hbit2 (fun i => Z 0 i + Z 1 i) i b
      unfold streamBit at this
      rw [show (unzipAt (nbits + 1) m2 (fun i => Z 0 i + Z 1 i) i).getLsbD b = (unzipAt (nbits + 1) m2 (fun i => Z 0 i + Z 1 i) i).toNat.testBit b from rfl] at this
      rw [this, Nat.testBit_mod_two_pow, Nat.testBit_div_two_pow]
      by_cases hbS : b < nbits + 1
      · have e : i * (nbits + 1) + b = i / c * w + (b + i % c * (nbits + 1)) := by
          conv_lhs => rw [← hik]
          rw [hc]; ring
        have hlt : b + i % c * (nbits + 1) < w := by omega
        rw [e, show (i / c * w + (b + i % c * (nbits + 1))) / w = i / c by rw [Nat.add_comm, Nat.add_mul_div_right _ _ hw, Nat.div_eq_of_lt hlt]; omega,
          show (i / c * w + (b + i % c * (nbits + 1))) % w = b + i % c * (nbits + 1) by rw [Nat.add_comm, Nat.add_mul_mod_self_right, Nat.mod_eq_of_lt hlt]]
        rw [BitVec.getLsbD, BitVec.toNat_add, Nat.testBit_mod_two_pow]
        simp [hlt]
      · simp [hbS]
    have hval' : ∀ u v : BitVec w, (unzipAt (nbits + 1) m2 (fun i => Z 0 i + Z 1 i) i).toNat = u.toNat + v.toNat →
        (unzipAt (nbits + 1) m2 (fun i => Z 0 i + Z 1 i) i).toNat % 2 ^ nbits = (u + v).toNat % 2 ^ nbits := by
      intro u v h
      rw [h, BitVec.toNat_add, Nat.mod_mod_of_dvd _ (Nat.pow_dvd_pow 2 hb)]
    have := hval' _ _ hval
    rw [hZ] at this
    rw [this]

/-- Additive shares with bits above the declared ones do not open: the carry of one slot enters the next. -/
theorem c51_open_add_carry : (openShare (w := 8) .add 3 2 fun p i => if p = 0 ∧ i = 0 then 0x0f else if i = 0 then 1 else 0).map (fun o => (o 0, o 1)) =
    some (0, 1) := by decide +kernel

/-- An empty array cannot be opened by exclusive or: unpacking throws. -/
theorem c51_open_empty (x : Fin 2 → ℕ → BitVec 64) : openShare .xor 1 0 x = none := by
  unfold openShare zipArray unzipArray ceilDiv
  rfl

/-! Five elements of three bits in words of eight: two words, two elements cross. -/

example : (zipArray (w := 8) 3 5 (fun i => BitVec.ofNat 8 (i + 3)) 2).map (fun z => (z.1 0, z.1 1, z.2)) = some (0x63, 0x7d, 2) := by decide +kernel
example : ((zipArray (w := 8) 3 5 (fun i => BitVec.ofNat 8 (i + 3)) 2).bind fun z => (unzipArray 3 2 z.1 5).map fun o => (List.range 5).map o) =
    some [3, 4, 5, 6, 7] := by decide +kernel
example : (openShare (w := 8) .add 3 3 fun p i => if p = 0 then BitVec.ofNat 8 (i + 5) else 7).map (fun o => (o 0, o 1, o 2)) = some (4, 5, 6) := by
  decide +kernel

end Spu.Props

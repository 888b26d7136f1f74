import Verif.Model.Bits
import Mathlib.Logic.Equiv.Basic
import Mathlib.Tactic.Ring
import Mathlib.Tactic.Linarith

set_option autoImplicit false

/-! # C14: bit interleave and de-interleave -/

namespace Spu.Props
open Model.Bits

/-- source of bit `p` after exchanging index bits `l` and `l+1` -/
def swapIdx (l p : ℕ) : ℕ :=
  if p / 2 ^ l % 4 = 1 then p + 2 ^ l else if p / 2 ^ l % 4 = 2 then p - 2 ^ l else p

theorem swapMasks_bit : ∀ l, l < 6 → ∃ M, swapMasks[l]? = some M ∧
    ∀ p, p < 128 → M.getLsbD p = decide (p / 2 ^ l % 4 = 1) := by
  have key : ∀ l : Fin 6, ∀ p : Fin 128,
      (swapMasks.getD l.val 0).getLsbD p.val = decide (p.val / 2 ^ l.val % 4 = 1) := by
    decide +kernel
  intro l hl
  have hlen : l < swapMasks.length := by simpa [swapMasks] using hl
  refine ⟨swapMasks[l], List.getElem?_eq_getElem hlen, fun p hp => ?_⟩
  have := key ⟨l, hl⟩ ⟨p, hp⟩
  simpa [List.getD_eq_getElem?_getD, List.getElem?_eq_getElem hlen] using this

theorem keepMasks_bit : ∀ l, l < 6 → ∃ M, keepMasks[l]? = some M ∧
    ∀ p, p < 128 → M.getLsbD p = decide (p / 2 ^ l % 4 = 0 ∨ p / 2 ^ l % 4 = 3) := by
  have key : ∀ l : Fin 6, ∀ p : Fin 128, (keepMasks.getD l.val 0).getLsbD p.val
      = decide (p.val / 2 ^ l.val % 4 = 0 ∨ p.val / 2 ^ l.val % 4 = 3) := by
    decide +kernel
  intro l hl
  have hlen : l < keepMasks.length := by simpa [keepMasks] using hl
  refine ⟨keepMasks[l], List.getElem?_eq_getElem hlen, fun p hp => ?_⟩
  have := key ⟨l, hl⟩ ⟨p, hp⟩
  simpa [List.getD_eq_getElem?_getD, List.getElem?_eq_getElem hlen] using this

theorem div_pow_lt {w l p : ℕ} (hw : 2 ^ (l + 2) ∣ w) (hp : p < w) (h : p / 2 ^ l % 4 = 1) :
    p + 2 ^ l < w := by
  obtain ⟨c, rfl⟩ := hw
  have e : 2 ^ (l + 2) = 4 * 2 ^ l := by rw [pow_add]; ring
  rw [e] at hp ⊢
  have hpos : 0 < 2 ^ l := Nat.two_pow_pos l
  have h1 : p / 2 ^ l < 4 * c := by
    rw [Nat.div_lt_iff_lt_mul hpos]
    calc p < 4 * 2 ^ l * c := hp
      _ = 4 * c * 2 ^ l := by ring
  have h2 : p / 2 ^ l + 2 ≤ 4 * c := by omega
  have h3 : p < (p / 2 ^ l + 1) * 2 ^ l := Nat.lt_mul_of_div_lt (Nat.lt_succ_self _) hpos
  calc p + 2 ^ l < (p / 2 ^ l + 1) * 2 ^ l + 2 ^ l := by omega
    _ = (p / 2 ^ l + 2) * 2 ^ l := by ring
    _ ≤ 4 * c * 2 ^ l := Nat.mul_le_mul_right _ h2
    _ = 4 * 2 ^ l * c := by ring

theorem le_of_div_pow {l p : ℕ} (h : p / 2 ^ l % 4 = 2) : 2 ^ l ≤ p := by
  by_contra hc
  rw [Nat.div_eq_of_lt (by omega)] at h
  omega

theorem sub_div_pow {l p : ℕ} (h : 2 ^ l ≤ p) : (p - 2 ^ l) / 2 ^ l = p / 2 ^ l - 1 := by
  have hpos : 0 < 2 ^ l := Nat.two_pow_pos l
  obtain ⟨q, rfl⟩ := Nat.exists_eq_add_of_le h
  rw [Nat.add_sub_cancel_left, Nat.add_div_left _ hpos]; simp

theorem swapIdx_lt {w l p : ℕ} (hw : 2 ^ (l + 2) ∣ w) (hp : p < w) : swapIdx l p < w := by
  unfold swapIdx
  split
  · exact div_pow_lt hw hp ‹_›
  · split
    · exact lt_of_le_of_lt (Nat.sub_le _ _) hp
    · exact hp

theorem swapIdx_swapIdx (l p : ℕ) : swapIdx l (swapIdx l p) = p := by
  have hpos : 0 < 2 ^ l := Nat.two_pow_pos l
  unfold swapIdx
  by_cases h1 : p / 2 ^ l % 4 = 1
  · rw [if_pos h1, Nat.add_div_right _ hpos, if_neg (by omega), if_pos (by omega)]; omega
  · rw [if_neg h1]
    by_cases h2 : p / 2 ^ l % 4 = 2
    · rw [if_pos h2, sub_div_pow (le_of_div_pow h2), if_pos (by generalize p / 2 ^ l = d at h2; omega)]
      have := le_of_div_pow h2; omega
    · rw [if_neg h2, if_neg h1, if_neg h2]

/-- one level moves bit `swapIdx l p` to position `p` -/
theorem swapStep_spec {w l : ℕ} (hl : l < 6) (_hw : 2 ^ (l + 2) ∣ w) (h128 : w ≤ 128) (r : BitVec w) :
    ∃ r', swapStep l r = some r' ∧ ∀ p, p < w → r'.getLsbD p = r.getLsbD (swapIdx l p) := by
  obtain ⟨M, hM, hMb⟩ := swapMasks_bit l hl
  obtain ⟨K, hK, hKb⟩ := keepMasks_bit l hl
  refine ⟨_, by simp only [swapStep, hM, hK]; rfl, fun p hp => ?_⟩
  have hpos : 0 < 2 ^ l := Nat.two_pow_pos l
  simp only [BitVec.getLsbD_xor, BitVec.getLsbD_and, BitVec.getLsbD_setWidth, BitVec.getLsbD_ushiftRight,
    BitVec.getLsbD_shiftLeft, hp, decide_true, Bool.true_and, hMb p (by omega), hKb p (by omega)]
  have hlt4 : p / 2 ^ l % 4 < 4 := Nat.mod_lt _ (by norm_num)
  unfold swapIdx
  by_cases h1 : p / 2 ^ l % 4 = 1
  · have hK0 : ¬ (p / 2 ^ l % 4 = 0 ∨ p / 2 ^ l % 4 = 3) := by omega
    simp only [h1, if_true]
    by_cases hlt : p < 2 ^ l
    · rw [Nat.div_eq_of_lt hlt] at h1; omega
    · have := sub_div_pow (l := l) (p := p) (by omega)
      have hm : ¬ ((p - 2 ^ l) / 2 ^ l % 4 = 1) := by rw [this]; omega
      simp only [hMb (p - 2 ^ l) (by omega), hm]
      simp [Nat.add_comm]
  · by_cases h2 : p / 2 ^ l % 4 = 2
    · have hle := le_of_div_pow h2
      have := sub_div_pow (l := l) (p := p) hle
      have hm : (p - 2 ^ l) / 2 ^ l % 4 = 1 := by
        rw [this]; generalize p / 2 ^ l = d at h2; omega
      simp only [hMb (p - 2 ^ l) (by omega), hm, h2]
      have hlt : p - 2 ^ l < w := by omega
      simp [hlt, show ¬ p < 2 ^ l by omega]
    · have hK0 : (p / 2 ^ l % 4 = 0 ∨ p / 2 ^ l % 4 = 3) := by omega
      rw [if_neg h1, if_neg h2]
      simp only [h1, hK0]
      by_cases hlt : p < 2 ^ l
      · simp [hlt]
      · have := sub_div_pow (l := l) (p := p) (by omega)
        have hm : ¬ ((p - 2 ^ l) / 2 ^ l % 4 = 1) := by
          rw [this]
          have : 1 ≤ p / 2 ^ l := Nat.div_pos (by omega) hpos
          omega
        simp only [hMb (p - 2 ^ l) (by omega), hm]
        simp

/-- the position permutation of one level -/
def swapEquiv (w l : ℕ) (hw : 2 ^ (l + 2) ∣ w) : Equiv.Perm (Fin w) where
  toFun p := ⟨swapIdx l p.val, swapIdx_lt hw p.isLt⟩
  invFun p := ⟨swapIdx l p.val, swapIdx_lt hw p.isLt⟩
  left_inv p := Fin.ext (swapIdx_swapIdx l p.val)
  right_inv p := Fin.ext (swapIdx_swapIdx l p.val)

/-- Source of bit `p` after moving groups of `2^s` bits apart within blocks of `2^(t+1)` bits. -/
def deSrc (s t p : ℕ) : ℕ :=
  p / 2 ^ (t + 1) * 2 ^ (t + 1) + p % 2 ^ t / 2 ^ s * 2 ^ (s + 1) + p / 2 ^ t % 2 * 2 ^ s + p % 2 ^ s

theorem deSrc_self (s p : ℕ) : deSrc s s p = p := by
  unfold deSrc
  rw [Nat.div_eq_of_lt (Nat.mod_lt _ (Nat.two_pow_pos s)), Nat.zero_mul, Nat.add_zero]
  have h1 : p / 2 ^ (s + 1) = p / 2 ^ s / 2 := by rw [pow_succ, Nat.div_div_eq_div_mul]
  have h2 := Nat.div_add_mod p (2 ^ s)
  have h3 := Nat.div_add_mod (p / 2 ^ s) 2
  rw [h1, pow_succ]
  calc p / 2 ^ s / 2 * (2 ^ s * 2) + p / 2 ^ s % 2 * 2 ^ s + p % 2 ^ s
      = 2 ^ s * (2 * (p / 2 ^ s / 2) + p / 2 ^ s % 2) + p % 2 ^ s := by ring
    _ = p := by rw [h3, h2]

theorem deSrc_eq {s t B h q : ℕ} (hst : s ≤ t) (hh : h < 2) (hq : q < 2 ^ t) :
    deSrc s t (B * 2 ^ (t + 1) + h * 2 ^ t + q)
      = B * 2 ^ (t + 1) + q / 2 ^ s * 2 ^ (s + 1) + h * 2 ^ s + q % 2 ^ s := by
  have hpos : 0 < 2 ^ t := Nat.two_pow_pos t
  have e : 2 ^ (t + 1) = 2 ^ t * 2 := pow_succ 2 t
  have hin : h * 2 ^ t + q < 2 ^ (t + 1) := by
    rw [e]
    have : h * 2 ^ t ≤ 1 * 2 ^ t := Nat.mul_le_mul_right _ (by omega)
    omega
  have d1 : (B * 2 ^ (t + 1) + h * 2 ^ t + q) / 2 ^ (t + 1) = B := by
    rw [Nat.add_assoc, Nat.mul_comm, Nat.mul_add_div (Nat.two_pow_pos _), Nat.div_eq_of_lt hin,
      Nat.add_zero]
  have e2 : B * 2 ^ (t + 1) + h * 2 ^ t + q = (2 * B + h) * 2 ^ t + q := by rw [e]; ring
  have d2 : (B * 2 ^ (t + 1) + h * 2 ^ t + q) / 2 ^ t = 2 * B + h := by
    rw [e2, Nat.mul_comm, Nat.mul_add_div hpos, Nat.div_eq_of_lt hq, Nat.add_zero]
  have d3 : (B * 2 ^ (t + 1) + h * 2 ^ t + q) % 2 ^ t = q := by
    rw [e2, Nat.mul_comm, Nat.mul_add_mod, Nat.mod_eq_of_lt hq]
  have d4 : (B * 2 ^ (t + 1) + h * 2 ^ t + q) % 2 ^ s = q % 2 ^ s := by
    rw [e2]
    obtain ⟨k, rfl⟩ := Nat.exists_eq_add_of_le hst
    rw [pow_add, show (2 * B + h) * (2 ^ s * 2 ^ k) = 2 ^ s * ((2 * B + h) * 2 ^ k) by ring,
      Nat.mul_add_mod]
  unfold deSrc
  rw [d1, d2, d3, d4, show (2 * B + h) % 2 = h by omega]

theorem split_pos (t p : ℕ) : ∃ B h q, h < 2 ∧ q < 2 ^ t ∧ p = B * 2 ^ (t + 1) + h * 2 ^ t + q := by
  refine ⟨p / 2 ^ t / 2, p / 2 ^ t % 2, p % 2 ^ t, Nat.mod_lt _ (by norm_num),
    Nat.mod_lt _ (Nat.two_pow_pos t), ?_⟩
  have h2 := Nat.div_add_mod p (2 ^ t)
  have h3 := Nat.div_add_mod (p / 2 ^ t) 2
  rw [pow_succ]
  calc p = 2 ^ t * (2 * (p / 2 ^ t / 2) + p / 2 ^ t % 2) + p % 2 ^ t := by rw [h3, h2]
    _ = _ := by ring

theorem deSrc_swapIdx {s t : ℕ} (hst : s ≤ t) (p : ℕ) : deSrc s t (swapIdx t p) = deSrc s (t + 1) p := by
  obtain ⟨B, h, q1, hh, hq1, rfl⟩ := split_pos (t + 1) p
  obtain ⟨Z, b, q, hb, hq, rfl⟩ := split_pos t q1
  have hpos : 0 < 2 ^ t := Nat.two_pow_pos t
  have hZ : Z = 0 := by
    by_contra hz
    have : 1 * 2 ^ (t + 1) ≤ Z * 2 ^ (t + 1) := Nat.mul_le_mul_right _ (by omega)
    omega
  subst hZ
  simp only [Nat.zero_mul, Nat.zero_add] at hq1 ⊢
  rw [deSrc_eq (by omega) hh hq1]
  -- the exchanged position
  have e : 2 ^ (t + 1) = 2 ^ t * 2 := pow_succ 2 t
  have e' : 2 ^ (t + 1 + 1) = 2 ^ t * 4 := by rw [pow_succ, e]; ring
  have hd : (B * 2 ^ (t + 1 + 1) + h * 2 ^ (t + 1) + (b * 2 ^ t + q)) / 2 ^ t = 4 * B + 2 * h + b := by
    rw [e, e', show B * (2 ^ t * 4) + h * (2 ^ t * 2) + (b * 2 ^ t + q)
      = 2 ^ t * (4 * B + 2 * h + b) + q by ring, Nat.mul_add_div hpos, Nat.div_eq_of_lt hq, Nat.add_zero]
  have hs : swapIdx t (B * 2 ^ (t + 1 + 1) + h * 2 ^ (t + 1) + (b * 2 ^ t + q))
      = (2 * B + b) * 2 ^ (t + 1) + h * 2 ^ t + q := by
    unfold swapIdx
    rw [hd]
    have hh' : h = 0 ∨ h = 1 := by omega
    have hb' : b = 0 ∨ b = 1 := by omega
    rcases hh' with rfl | rfl <;> rcases hb' with rfl | rfl
    · rw [if_neg (by omega), if_neg (by omega), e', e]; ring
    · rw [if_pos (by omega), e', e]; ring
    · rw [if_neg (by omega), if_pos (by omega), e', e]
      have : B * (2 ^ t * 4) + 1 * (2 ^ t * 2) + (0 * 2 ^ t + q)
        = ((2 * B + 0) * (2 ^ t * 2) + 1 * 2 ^ t + q) + 2 ^ t := by ring
      omega
    · rw [if_neg (by omega), if_neg (by omega), e', e]; ring
  rw [hs, deSrc_eq hst hh hq]
  obtain ⟨k, rfl⟩ := Nat.exists_eq_add_of_le hst
  have hps : 0 < 2 ^ s := Nat.two_pow_pos s
  have e3 : b * 2 ^ (s + k) + q = 2 ^ s * (b * 2 ^ k) + q := by rw [pow_add]; ring
  rw [e3, Nat.mul_add_div hps, Nat.mul_add_mod]
  have : (b * 2 ^ k + q / 2 ^ s) * 2 ^ (s + 1) = b * 2 ^ (s + k + 1) + q / 2 ^ s * 2 ^ (s + 1) := by
    rw [Nat.add_mul, show s + k + 1 = k + (s + 1) by omega, pow_add 2 k]; ring
  rw [this, show s + k + 1 + 1 = (s + k + 1) + 1 from rfl, pow_succ 2 (s + k + 1)]
  ring

theorem log2Ceil_pow (m : ℕ) : log2Ceil (2 ^ m) = m := by
  unfold log2Ceil
  rcases m with _ | m
  · simp
  · have h2 : 2 ≤ 2 ^ (m + 1) := by
      calc 2 = 2 ^ 1 := rfl
        _ ≤ 2 ^ (m + 1) := Nat.pow_le_pow_right (by norm_num) (by omega)
    rw [if_neg (by omega)]
    congr 1
    rw [Nat.log2_eq_iff (by omega)]
    have : 2 ^ (m + 1) = 2 * 2 ^ m := by rw [pow_succ]; ring
    have := Nat.two_pow_pos m
    omega

theorem deintlLevels_eq (s m : ℕ) :
    deintlLevels s (2 ^ m) = (List.range (m - 1 - s)).map (fun k => s + k) := by
  unfold deintlLevels
  rw [log2Ceil_pow]
  generalize m - 1 = j
  induction j with
  | zero => simp
  | succ j ih =>
    rw [List.range_succ, List.filter_append, ih]
    by_cases h : s ≤ j
    · rw [show j + 1 - s = (j - s) + 1 by omega, List.range_succ, List.map_append]
      simp [h]
    · rw [show j + 1 - s = 0 by omega, show j - s = 0 by omega]
      simp [h]

theorem deintl_fold {w : ℕ} (h128 : w ≤ 128) (s : ℕ) (x : BitVec w) :
    ∀ k, (0 < k → 2 ^ (s + k + 1) ∣ w ∧ s + k ≤ 6) →
      ∃ r, ((List.range k).map (fun k => s + k)).foldlM (fun r l => swapStep l r) x = some r ∧
        ∀ p, p < w → r.getLsbD p = x.getLsbD (deSrc s (s + k) p) := by
  intro k
  induction k with
  | zero => intro _; exact ⟨x, rfl, fun p _ => by rw [Nat.add_zero, deSrc_self]⟩
  | succ k ih =>
    intro hk
    obtain ⟨hd, h6⟩ := hk (by omega)
    obtain ⟨r, hr, hrb⟩ := ih (fun _ => ⟨dvd_trans (pow_dvd_pow 2 (by omega)) hd, by omega⟩)
    obtain ⟨r', hr', hrb'⟩ := swapStep_spec (l := s + k) (by omega)
      (dvd_trans (pow_dvd_pow 2 (by omega)) hd) h128 r
    refine ⟨r', ?_, fun p hp => ?_⟩
    · rw [List.range_succ, List.map_append, List.foldlM_append, hr]
      simp [hr']
    · rw [hrb' p hp, hrb _ (swapIdx_lt (dvd_trans (pow_dvd_pow 2 (by omega)) hd) hp),
        deSrc_swapIdx (by omega)]
      rfl

/-- folding the levels backwards undoes folding them forwards -/
theorem swap_fold_inv {w : ℕ} (h128 : w ≤ 128) (ls : List ℕ) (hls : ∀ l ∈ ls, l < 6 ∧ 2 ^ (l + 2) ∣ w)
    (x : BitVec w) : ∃ r, ls.foldlM (fun r l => swapStep l r) x = some r ∧
      ls.reverse.foldlM (fun r l => swapStep l r) r = some x := by
  induction ls generalizing x with
  | nil => exact ⟨x, rfl, rfl⟩
  | cons l ls ih =>
    obtain ⟨h6, hd⟩ := hls l (by simp)
    obtain ⟨y, hy, hyb⟩ := swapStep_spec h6 hd h128 x
    obtain ⟨r, hr, hr'⟩ := ih (fun l hl => hls l (by simp [hl])) y
    refine ⟨r, by simp [List.foldlM_cons, hy, hr], ?_⟩
    rw [List.reverse_cons, List.foldlM_append, hr']
    obtain ⟨z, hz, hzb⟩ := swapStep_spec h6 hd h128 y
    have : z = x := by
      apply BitVec.eq_of_getLsbD_eq
      intro p hp
      rw [hzb p hp, hyb _ (swapIdx_lt hd hp), swapIdx_swapIdx]
    simp [hz, this]

theorem levels_ok {w s m : ℕ} (h128 : w ≤ 128) (hw : 0 < w) (hm : 2 ^ m ∣ w) :
    ∀ l ∈ deintlLevels s (2 ^ m), l < 6 ∧ 2 ^ (l + 2) ∣ w := by
  have hm7 : m ≤ 7 := by
    have h1 : 2 ^ m ≤ 128 := le_trans (Nat.le_of_dvd hw hm) h128
    by_contra hc
    have : 2 ^ 8 ≤ 2 ^ m := Nat.pow_le_pow_right (by norm_num) (by omega)
    omega
  intro l hl
  rw [deintlLevels_eq] at hl
  simp only [List.mem_map, List.mem_range] at hl
  obtain ⟨k, hk, rfl⟩ := hl
  exact ⟨by omega, dvd_trans (pow_dvd_pow 2 (by omega)) hm⟩

/-- C14: de-interleaving with `nbits = 2^(m+1)`, stage stride `s ≤ m`: within every block of `nbits`
bits, bit number `q` of half `h` of the result is bit `q mod 2^s` of group `2 * (q / 2^s) + h` of the
operand, groups being `2^s` bits long.  So the even-numbered groups end up in the low half and the
odd-numbered groups in the high half, each in order. -/
theorem c14_deintl {w s m : ℕ} (h128 : w ≤ 128) (hw : 0 < w) (hm : 2 ^ (m + 1) ∣ w) (hs : s ≤ m)
    (x : BitVec w) : ∃ r, bitDeintl x s (2 ^ (m + 1)) = some r ∧
      ∀ B h q, h < 2 → q < 2 ^ m → B * 2 ^ (m + 1) + h * 2 ^ m + q < w →
        r.getLsbD (B * 2 ^ (m + 1) + h * 2 ^ m + q)
          = x.getLsbD (B * 2 ^ (m + 1) + (2 * (q / 2 ^ s) + h) * 2 ^ s + q % 2 ^ s) := by
  have hm7 : m + 1 ≤ 7 := by
    have h1 : 2 ^ (m + 1) ≤ 128 := le_trans (Nat.le_of_dvd hw hm) h128
    by_contra hc
    have : 2 ^ 8 ≤ 2 ^ (m + 1) := Nat.pow_le_pow_right (by norm_num) (by omega)
    omega
  obtain ⟨r, hr, hrb⟩ := deintl_fold h128 s x (m - s)
    (fun _ => ⟨by rw [show s + (m - s) + 1 = m + 1 by omega]; exact hm, by omega⟩)
  refine ⟨r, ?_, fun B h q hh hq hp => ?_⟩
  · unfold bitDeintl
    rw [deintlLevels_eq, show m + 1 - 1 - s = m - s by omega, hr]
  · rw [hrb _ hp, show s + (m - s) = m by omega, deSrc_eq hs hh hq]
    congr 1
    rw [pow_succ 2 s]; ring

/-- C14: strides beyond the last stage (`nbits = 2^m`, `s + 1 ≥ m`) change nothing -/
theorem c14_deintl_large_stride {w s m : ℕ} (hs : m ≤ s + 1) (x : BitVec w) :
    bitDeintl x s (2 ^ m) = some x ∧ bitIntl x s (2 ^ m) = some x := by
  unfold bitDeintl bitIntl intlLevels
  rw [deintlLevels_eq, show m - 1 - s = 0 by omega]
  exact ⟨rfl, rfl⟩

/-- C14: interleaving undoes de-interleaving and vice versa, for every word width up to 128, every
power of two `nbits` that divides the width, and every stride. -/
theorem c14_inverse {w m : ℕ} (h128 : w ≤ 128) (hw : 0 < w) (hm : 2 ^ m ∣ w) (s : ℕ) (x : BitVec w) :
    (∃ r, bitDeintl x s (2 ^ m) = some r ∧ bitIntl r s (2 ^ m) = some x) ∧
    (∃ r, bitIntl x s (2 ^ m) = some r ∧ bitDeintl r s (2 ^ m) = some x) := by
  constructor
  · exact swap_fold_inv h128 _ (levels_ok h128 hw hm) x
  · have := swap_fold_inv h128 (deintlLevels s (2 ^ m)).reverse
      (fun l hl => levels_ok h128 hw hm l (List.mem_reverse.1 hl)) x
    rwa [List.reverse_reverse] at this

theorem fold_perm {w : ℕ} (h128 : w ≤ 128) (ls : List ℕ) (hls : ∀ l ∈ ls, l < 6 ∧ 2 ^ (l + 2) ∣ w) :
    ∃ σ : Equiv.Perm (Fin w), ∀ x r : BitVec w, ls.foldlM (fun r l => swapStep l r) x = some r →
      ∀ p : Fin w, r.getLsbD p = x.getLsbD (σ p) := by
  induction ls with
  | nil => exact ⟨Equiv.refl _, fun x r h p => by simp only [List.foldlM_nil] at h; cases h; rfl⟩
  | cons l ls ih =>
    obtain ⟨h6, hd⟩ := hls l (by simp)
    obtain ⟨σ, hσ⟩ := ih (fun l hl => hls l (by simp [hl]))
    refine ⟨σ.trans (swapEquiv w l hd), fun x r h p => ?_⟩
    obtain ⟨y, hy, hyb⟩ := swapStep_spec h6 hd h128 x
    simp only [List.foldlM_cons, hy, Option.bind_eq_bind, Option.bind_some] at h
    rw [hσ y r h p, hyb _ (σ p).isLt]
    rfl

/-- C14: both functions permute the bit positions, by a permutation that does not depend on the
operand. -/
theorem c14_permutation {w m : ℕ} (h128 : w ≤ 128) (hw : 0 < w) (hm : 2 ^ m ∣ w) (s : ℕ) :
    (∃ σ : Equiv.Perm (Fin w), ∀ x r : BitVec w, bitDeintl x s (2 ^ m) = some r →
      ∀ p : Fin w, r.getLsbD p = x.getLsbD (σ p)) ∧
    (∃ σ : Equiv.Perm (Fin w), ∀ x r : BitVec w, bitIntl x s (2 ^ m) = some r →
      ∀ p : Fin w, r.getLsbD p = x.getLsbD (σ p)) :=
  ⟨fold_perm h128 _ (levels_ok h128 hw hm),
   fold_perm h128 _ (fun l hl => levels_ok h128 hw hm l (List.mem_reverse.1 hl))⟩

-- the comments of the source: 01010101 -> 00001111 at stride 0, 00110011 -> 00001111 at stride 1
example : bitDeintl 0b01010101#8 0 8 = some 0b00001111#8 := by decide +kernel
example : bitDeintl 0b00110011#8 1 8 = some 0b00001111#8 := by decide +kernel
example : bitIntl 0b00001111#8 0 8 = some 0b01010101#8 := by decide +kernel
-- a 128-bit word with 64-bit blocks, stride 3
example (x : BitVec 128) : ∃ r, bitDeintl x 3 (2 ^ 6) = some r ∧ bitIntl r 3 (2 ^ 6) = some x :=
  (c14_inverse (by norm_num) (by norm_num) (by norm_num) 3 x).1
example (x : BitVec 32) : ∃ r, bitDeintl x 0 32 = some r ∧ r.getLsbD 17 = x.getLsbD 3 := by
  obtain ⟨r, hr, h⟩ := c14_deintl (m := 4) (s := 0) (w := 32) (by norm_num) (by norm_num) (by norm_num)
    (by norm_num) x
  exact ⟨r, hr, h 0 1 1 (by norm_num) (by norm_num) (by norm_num)⟩

end Spu.Props

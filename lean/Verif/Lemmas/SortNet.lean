import Mathlib.Tactic.Ring
import Mathlib.Tactic.Linarith
import Verif.Model.SortNet
set_option autoImplicit false
/-!
# Batcher's merge on 0/1 sequences, and the index structure of the layers
-/

namespace Spu.Lemmas.SortNet
open Spu.Model.SortNet

/-- `a` is the left index of a comparator of layer `(p, s)` (in the untruncated network) -/
def IsL (p s a : ℕ) : Prop := a % (2 * p) + s < 2 * p ∧ (s = p ∨ (a / s) % 2 = 1)

/-- effect of one layer on a 0/1 sequence -/
structure Step01 (p s : ℕ) (f f' : ℕ → Bool) : Prop where
  left : ∀ a, IsL p s a → f' a = (f a && f (a + s))
  right : ∀ a, IsL p s a → f' (a + s) = (f a || f (a + s))
  rest : ∀ i, ¬ IsL p s i → (∀ a, IsL p s a → i ≠ a + s) → f' i = f i

/-- blocks of `p` positions are sorted -/
def Blocks (p : ℕ) (f : ℕ → Bool) : Prop :=
  ∀ q, ∃ z ≤ p, ∀ i < p, f (p * q + i) = decide (z ≤ i)

/-- number of `i < z` with `i % s = r` -/
def cnt (z r s : ℕ) : ℕ := (z + (s - 1 - r)) / s

/-- state of the merge of blocks of `2 * p` positions after the layer of step `s` -/
def Inv (p s : ℕ) (f : ℕ → Bool) : Prop :=
  ∀ q, ∃ z1 ≤ p, ∃ z2 ≤ p, ∀ i < 2 * p,
    f (2 * p * q + i) = decide (cnt z1 (i % s) s + cnt z2 (i % s) s ≤ i / s)

theorem cnt_full {p z r : ℕ} (hp : 0 < p) (hz : z ≤ p) (hr : r < p) :
    cnt z r p = if r < z then 1 else 0 := by
  unfold cnt
  split
  · rename_i h
    rw [Nat.div_eq_iff hp]; omega
  · rename_i h
    exact Nat.div_eq_of_lt (by omega)

theorem blocks_merge_first {p : ℕ} (hp : 0 < p) {f f' : ℕ → Bool} (hb : Blocks p f)
    (hs : Step01 p p f f') : Inv p p f' := by
  intro q
  obtain ⟨z1, hz1, h1⟩ := hb (2 * q)
  obtain ⟨z2, hz2, h2⟩ := hb (2 * q + 1)
  refine ⟨z1, hz1, z2, hz2, fun i hi => ?_⟩
  have e1 : p * (2 * q) = 2 * p * q := by ring
  have e2 : p * (2 * q + 1) = 2 * p * q + p := by ring
  rw [e1] at h1
  rw [e2] at h2
  have hL : ∀ j, j < p → IsL p p (2 * p * q + j) := by
    intro j hj
    refine ⟨?_, Or.inl rfl⟩
    rw [Nat.mul_add_mod, Nat.mod_eq_of_lt (by omega)]; omega
  by_cases h : i < p
  · have hl := hs.left _ (hL i h)
    have h2' := h2 i h
    rw [show 2 * p * q + p + i = 2 * p * q + i + p by ring] at h2'
    rw [hl, h1 i h, h2', Nat.mod_eq_of_lt h, Nat.div_eq_of_lt h, cnt_full hp hz1 h,
      cnt_full hp hz2 h, ← Bool.decide_and]
    congr 1
    by_cases a : i < z1 <;> by_cases b : i < z2 <;> simp [a, b] <;> omega
  · obtain ⟨j, rfl⟩ : ∃ j, i = j + p := ⟨i - p, by omega⟩
    have hj : j < p := by omega
    have hl := hs.right _ (hL j hj)
    have h2' := h2 j hj
    rw [show 2 * p * q + p + j = 2 * p * q + j + p by ring] at h2'
    rw [show 2 * p * q + (j + p) = 2 * p * q + j + p by ring, hl, h1 j hj, h2',
      Nat.add_mod_right, Nat.mod_eq_of_lt hj, Nat.add_div_right _ hp, Nat.div_eq_of_lt hj,
      cnt_full hp hz1 hj, cnt_full hp hz2 hj, ← Bool.decide_or]
    congr 1
    by_cases a : j < z1 <;> by_cases b : j < z2 <;> simp [a, b] <;> omega

theorem cnt_half {s r z : ℕ} (hs : 0 < s) (hr : r < s) :
    cnt z r (2 * s) = (cnt z r s + 1) / 2 ∧ cnt z (r + s) (2 * s) = cnt z r s / 2 := by
  unfold cnt
  have e1 : z + (2 * s - 1 - r) = z + (s - 1 - r) + s := by omega
  have e2 : z + (2 * s - 1 - (r + s)) = z + (s - 1 - r) := by omega
  rw [e1, e2, Nat.mul_comm 2 s, ← Nat.div_div_eq_div_mul, ← Nat.div_div_eq_div_mul,
    Nat.add_div_right _ hs]
  exact ⟨rfl, rfl⟩

theorem cnt_le {s r z t : ℕ} (hs : 0 < s) (hz : z ≤ s * (2 * t)) :
    cnt z r s ≤ 2 * t := by
  unfold cnt
  have h : z + (s - 1 - r) < s * (2 * t + 1) := by
    have : s * (2 * t + 1) = s * (2 * t) + s := by ring
    omega
  have := Nat.div_lt_of_lt_mul h
  omega

theorem inv_step {p s t : ℕ} (hs : 0 < s) (ht : 0 < t) (hp : p = s * (2 * t)) {f f' : ℕ → Bool}
    (hi : Inv p (2 * s) f) (hst : Step01 p s f f') : Inv p s f' := by
  intro q
  obtain ⟨z1, hz1, z2, hz2, h⟩ := hi q
  refine ⟨z1, hz1, z2, hz2, fun i hi => ?_⟩
  -- i = s * (2 * u + e) + r
  obtain ⟨r, u, e, hr, he, rfl⟩ : ∃ r u e, r < s ∧ e < 2 ∧ i = s * (2 * u + e) + r :=
    ⟨i % s, i / s / 2, i / s % 2, Nat.mod_lt _ hs, Nat.mod_lt _ (by omega), by
      rw [Nat.div_add_mod, Nat.div_add_mod]⟩
  have hsne : s ≠ p := by
    rw [hp]; intro h
    have : s * 1 = s * (2 * t) := by omega
    have := Nat.eq_of_mul_eq_mul_left hs this
    omega
  -- bounds
  have hu : 2 * u + e < 4 * t := by
    have h1 : s * (2 * u + e) < s * (4 * t) := by
      have : 2 * p = s * (4 * t) := by rw [hp]; ring
      omega
    exact Nat.lt_of_mul_lt_mul_left h1
  have hmod : (s * (2 * u + e) + r) % s = r := by
    rw [Nat.mul_add_mod, Nat.mod_eq_of_lt hr]
  have hdiv : (s * (2 * u + e) + r) / s = 2 * u + e := by
    rw [Nat.mul_add_div hs, Nat.div_eq_of_lt hr]; omega
  rw [hmod, hdiv]
  -- value of f at position s*(2v+d)+r
  have hval : ∀ v d, d < 2 → 2 * v + d < 4 * t →
      f (2 * p * q + (s * (2 * v + d) + r)) =
        decide (cnt z1 (r + d * s) (2 * s) + cnt z2 (r + d * s) (2 * s) ≤ v) := by
    intro v d hd hv
    have e1 : s * (2 * v + d) + r = 2 * s * v + (r + d * s) := by ring
    have hlt : r + d * s < 2 * s := by
      have : d * s ≤ 1 * s := Nat.mul_le_mul_right _ (by omega)
      omega
    have hb : s * (2 * v + d) + r < 2 * p := by
      have h1 : s * (2 * v + d + 1) ≤ s * (4 * t) := Nat.mul_le_mul_left _ (by omega)
      have h2 : 2 * p = s * (4 * t) := by rw [hp]; ring
      have h3 : s * (2 * v + d + 1) = s * (2 * v + d) + s := by ring
      omega
    rw [h _ hb, e1, Nat.mul_add_mod, Nat.mod_eq_of_lt hlt, Nat.mul_add_div (by omega),
      Nat.div_eq_of_lt hlt, Nat.add_zero]
  obtain ⟨a1, b1⟩ := cnt_half (z := z1) hs hr
  obtain ⟨a2, b2⟩ := cnt_half (z := z2) hs hr
  have hc1 : cnt z1 r s ≤ 2 * t := cnt_le hs (by omega)
  have hc2 : cnt z2 r s ≤ 2 * t := cnt_le hs (by omega)
  have hv0 : ∀ v, 2 * v < 4 * t → f (2 * p * q + (s * (2 * v) + r)) =
      decide ((cnt z1 r s + 1) / 2 + (cnt z2 r s + 1) / 2 ≤ v) := by
    intro v hv
    have := hval v 0 (by omega) (by omega)
    simpa [a1, a2] using this
  have hv1 : ∀ v, 2 * v + 1 < 4 * t → f (2 * p * q + (s * (2 * v + 1) + r)) =
      decide (cnt z1 r s / 2 + cnt z2 r s / 2 ≤ v) := by
    intro v hv
    have := hval v 1 (by omega) hv
    simpa [b1, b2] using this
  generalize cnt z1 r s = x1 at *
  generalize cnt z2 r s = x2 at *
  -- block-relative facts
  have hblk : 2 * p * q = s * (4 * t * q) := by rw [hp]; ring
  have hdivs : ∀ k, (2 * p * q + (s * k + r)) / s % 2 = k % 2 := by
    intro k
    rw [hblk, show s * (4 * t * q) + (s * k + r) = s * (4 * t * q + k) + r by ring,
      Nat.mul_add_div hs, Nat.div_eq_of_lt hr, Nat.add_zero,
      show 4 * t * q + k = k + 2 * (2 * t * q) by ring, Nat.add_mul_mod_self_left]
  have h2p : 2 * p = s * (4 * t) := by rw [hp]; ring
  have hmods : ∀ k, k < 4 * t → (2 * p * q + (s * k + r)) % (2 * p) = s * k + r := by
    intro k hk
    have h1 : s * (k + 1) ≤ s * (4 * t) := Nat.mul_le_mul_left _ (by omega)
    have h3 : s * (k + 1) = s * k + s := by ring
    rw [Nat.mul_add_mod, Nat.mod_eq_of_lt (by omega)]
  have hisL : ∀ k, k < 4 * t → (IsL p s (2 * p * q + (s * k + r)) ↔ (k % 2 = 1 ∧ k + 1 < 4 * t)) := by
    intro k hk
    unfold IsL
    rw [hdivs, hmods k hk, h2p]
    constructor
    · rintro ⟨h1, h2⟩
      refine ⟨h2.resolve_left hsne, ?_⟩
      have h3 : s * (k + 1) = s * k + s := by ring
      have : s * (k + 1) < s * (4 * t) := by omega
      exact Nat.lt_of_mul_lt_mul_left this
    · rintro ⟨h1, h2⟩
      refine ⟨?_, Or.inr h1⟩
      have h1 : s * (k + 2) ≤ s * (4 * t) := Nat.mul_le_mul_left _ (by omega)
      have h3 : s * (k + 2) = s * k + s + s := by ring
      omega
  rcases (show e = 0 ∨ e = 1 by omega) with rfl | rfl
  · -- even group: right index, or first group
    by_cases hu0 : u = 0
    · subst hu0
      have hnl : ¬ IsL p s (2 * p * q + (s * (2 * 0 + 0) + r)) := by
        rw [hisL _ hu]; omega
      have hnr : ∀ a, IsL p s a → 2 * p * q + (s * (2 * 0 + 0) + r) ≠ a + s := by
        rintro a ⟨h1, h2⟩ h3
        have h4 : (a + s) / (2 * p) = q := by
          rw [← h3]
          have hlt : s * (2 * 0 + 0) + r < 2 * p := hi
          rw [Nat.mul_add_div (by omega), Nat.div_eq_of_lt hlt, Nat.add_zero]
        have h5 : (a + s) / (2 * p) = a / (2 * p) := by
          have ha := Nat.div_add_mod a (2 * p)
          rw [show a + s = 2 * p * (a / (2 * p)) + (a % (2 * p) + s) by omega,
            Nat.mul_add_div (by omega), Nat.div_eq_of_lt h1, Nat.add_zero]
        have h6 : 2 * p * q ≤ a := by
          rw [← h4, h5]; exact Nat.mul_div_le _ _
        have : s * (2 * 0 + 0) = 0 := by ring
        omega
      rw [hst.rest _ hnl hnr]
      have := hv0 0 (by omega)
      rw [show s * (2 * 0 + 0) = s * (2 * 0) by ring, this]
      congr 1
      apply propext
      constructor <;> intro <;> omega
    · obtain ⟨v, rfl⟩ : ∃ v, u = v + 1 := ⟨u - 1, by omega⟩
      have hL : IsL p s (2 * p * q + (s * (2 * v + 1) + r)) := by
        rw [hisL _ (by omega)]; omega
      have hr' := hst.right _ hL
      have e1 : 2 * p * q + (s * (2 * v + 1) + r) + s = 2 * p * q + (s * (2 * (v + 1)) + r) := by
        ring
      rw [e1] at hr'
      rw [Nat.add_zero, hr', hv1 v (by omega), hv0 (v + 1) (by omega), ← Bool.decide_or]
      congr 1
      apply propext
      constructor <;> intro <;> omega
  · by_cases hlast : 2 * u + 1 + 1 < 4 * t
    · have hL : IsL p s (2 * p * q + (s * (2 * u + 1) + r)) := by
        rw [hisL _ hu]; omega
      have hl' := hst.left _ hL
      have e1 : 2 * p * q + (s * (2 * u + 1) + r) + s = 2 * p * q + (s * (2 * (u + 1)) + r) := by
        ring
      rw [hl', e1, hv1 u hu, hv0 (u + 1) (by omega), ← Bool.decide_and]
      congr 1
      apply propext
      constructor <;> intro <;> omega
    · have hnl : ¬ IsL p s (2 * p * q + (s * (2 * u + 1) + r)) := by
        rw [hisL _ hu]; omega
      have hnr : ∀ a, IsL p s a → 2 * p * q + (s * (2 * u + 1) + r) ≠ a + s := by
        rintro a ⟨h1, h2⟩ h3
        have h2' := h2.resolve_left hsne
        have := hdivs (2 * u + 1)
        rw [h3, Nat.add_div_right _ hs] at this
        omega
      rw [hst.rest _ hnl hnr, hv1 u hu]
      congr 1
      apply propext
      constructor <;> intro <;> omega

theorem inv_one {p : ℕ} {f : ℕ → Bool} (h : Inv p 1 f) : Blocks (2 * p) f := by
  intro q
  obtain ⟨z1, hz1, z2, hz2, h⟩ := h q
  refine ⟨z1 + z2, by omega, fun i hi => ?_⟩
  rw [h i hi]
  simp [cnt, Nat.mod_one]

end Spu.Lemmas.SortNet

import Mathlib.Tactic.Ring
import Mathlib.Tactic.Linarith
import Mathlib.Tactic.LinearCombination
import Mathlib.Tactic.IntervalCases
import Mathlib.Data.Fintype.BigOperators
import Mathlib.Data.Nat.Prime.Int
import Mathlib.Algebra.Prime.Lemmas
import Mathlib.Algebra.Order.BigOperators.Group.Finset
import Verif.Model.Spdz2kMac
import Verif.Spec.Spdz2kMac
import Verif.Spec.Gates

set_option autoImplicit false

/-!
C61: the MAC check of SPDZ2k.  Honest parties always pass; a value that was changed when it was opened passes for at
most a fraction `(s+5)/2^(s+2)` of keys and coins, whatever the other parties do.
-/

namespace Spu.Props
open Spu.Model.Spdz Spu.Spec.Spdz

/-! ## Congruences -/

theorem eqv_iff {w m : ℕ} (hm : m ≤ w) (a b : ZMod (2 ^ w)) : Eqv m a b ↔ (2 ^ m : ℤ) ∣ a.val - b.val := by
  have : NeZero (2 ^ w) := ⟨by positivity⟩
  have hd : (2 ^ m : ℤ) ∣ 2 ^ w := pow_dvd_pow 2 hm
  constructor
  · rintro ⟨z, h⟩
    have h1 : ((a.val : ℤ) : ZMod (2 ^ w)) = ((b.val + 2 ^ m * z.val : ℤ) : ZMod (2 ^ w)) := by
      push_cast
      rw [ZMod.natCast_zmod_val, ZMod.natCast_zmod_val, ZMod.natCast_zmod_val]
      exact h
    rw [ZMod.intCast_eq_intCast_iff_dvd_sub] at h1
    push_cast at h1
    have h2 := dvd_trans hd h1
    have : (a.val : ℤ) - b.val = -((b.val : ℤ) + 2 ^ m * z.val - a.val) + 2 ^ m * z.val := by ring
    rw [this]
    exact dvd_add (dvd_neg.2 h2) (dvd_mul_right _ _)
  · rintro ⟨q, h⟩
    refine ⟨(q : ZMod (2 ^ w)), ?_⟩
    have h1 : ((a.val : ℤ) : ZMod (2 ^ w)) = ((b.val + 2 ^ m * q : ℤ) : ZMod (2 ^ w)) := by
      congr 1
      linarith
    push_cast at h1
    rwa [ZMod.natCast_zmod_val, ZMod.natCast_zmod_val] at h1

theorem low_eqv {w m : ℕ} (hm : m ≤ w) (x : Rg w) : Eqv m (low m x) x := by
  have : NeZero (2 ^ w) := ⟨by positivity⟩
  refine ⟨-((x.val / 2 ^ m : ℕ) : ZMod (2 ^ w)), ?_⟩
  have h := Nat.div_add_mod x.val (2 ^ m)
  have h2 : ((2 ^ m * (x.val / 2 ^ m) + x.val % 2 ^ m : ℕ) : ZMod (2 ^ w)) = x := by
    rw [h, ZMod.natCast_zmod_val]
  unfold low
  rw [Nat.cast_add, Nat.cast_mul] at h2
  push_cast at h2 ⊢
  linear_combination h2

theorem low_val {w m : ℕ} (hm : m ≤ w) (x : Rg w) : (low m x).val = x.val % 2 ^ m := by
  unfold low
  rw [ZMod.val_natCast]
  exact Nat.mod_eq_of_lt ((Nat.mod_lt _ (by positivity)).trans_le (Nat.pow_le_pow_right (by norm_num) hm))

theorem eqvRefl {w m : ℕ} (a : ZMod (2 ^ w)) : Eqv m a a := ⟨0, by ring⟩

theorem eqvSymm {w m : ℕ} {a b : ZMod (2 ^ w)} (h : Eqv m a b) : Eqv m b a := by
  obtain ⟨z, h⟩ := h
  exact ⟨-z, by rw [h]; ring⟩

theorem eqvTrans {w m : ℕ} {a b c : ZMod (2 ^ w)} (h : Eqv m a b) (g : Eqv m b c) : Eqv m a c := by
  obtain ⟨y, h⟩ := h
  obtain ⟨z, g⟩ := g
  exact ⟨y + z, by rw [h, g]; ring⟩

theorem eqvAdd {w m : ℕ} {a b c d : ZMod (2 ^ w)} (h : Eqv m a b) (g : Eqv m c d) : Eqv m (a + c) (b + d) := by
  obtain ⟨y, h⟩ := h
  obtain ⟨z, g⟩ := g
  exact ⟨y + z, by rw [h, g]; ring⟩

theorem eqvMul {w m : ℕ} {a b : ZMod (2 ^ w)} (c : ZMod (2 ^ w)) (h : Eqv m a b) : Eqv m (c * a) (c * b) := by
  obtain ⟨y, h⟩ := h
  exact ⟨c * y, by rw [h]; ring⟩

theorem eqvSum {w m : ℕ} {ι : Type} (t : Finset ι) {f g : ι → ZMod (2 ^ w)} (h : ∀ i ∈ t, Eqv m (f i) (g i)) :
    Eqv m (∑ i ∈ t, f i) (∑ i ∈ t, g i) := by
  classical
  induction t using Finset.induction_on with
  | empty => exact eqvRefl _
  | insert a t ha ih =>
    rw [Finset.sum_insert ha, Finset.sum_insert ha]
    exact eqvAdd (h _ (Finset.mem_insert_self _ _)) (ih fun i hi => h i (Finset.mem_insert_of_mem hi))

theorem verdict_iff {w m : ℕ} (h0 : m ≠ 0) (hm : m ≤ w) (zs : List (Rg w)) : verdict m zs = true ↔ Eqv m zs.sum 0 := by
  have : NeZero (2 ^ w) := ⟨by positivity⟩
  unfold verdict
  simp only [if_pos h0, decide_eq_true_eq]
  rw [eqv_iff hm, ZMod.val_zero, Nat.cast_zero, sub_zero, ← ZMod.val_eq_zero, low_val hm,
    show ((2 : ℤ) ^ m) = ((2 ^ m : ℕ) : ℤ) by push_cast; rfl, Int.natCast_dvd_natCast]
  exact (Nat.dvd_iff_mod_eq_zero).symm

/-! ## Honest parties pass -/

theorem c61_complete {ι : Type} [Fintype ι] {w k s n : ℕ} (h0 : k + s ≠ 0) (hw : k + s ≤ w) {key : ι → Rg w}
    {x r : Fin n → Rg w} {val mac rVal rMac : ι → Fin n → Rg w}
    (hx : ∀ j, Auth (k + s) key (x j) (fun i => val i j) (fun i => mac i j))
    (hr : ∀ j, Auth (k + s) key (r j) (fun i => rVal i j) (fun i => rMac i j)) (pub : Fin n → Rg w) (parties : List ι)
    (hp : parties.Perm (Finset.univ : Finset ι).toList) :
    let sh := fun i => maskShare k (val i) (mac i) (rVal i) (rMac i)
    let o := opened fun i => (sh i).1
    (∀ j, Eqv k (o j) (x j)) ∧
      verdict (k + s) (parties.map fun i => zShare s pub o (sh i).2 (key i)) = true := by
  intro sh o
  have ho : ∀ j, o j = ∑ i, val i j + 2 ^ k * ∑ i, rVal i j := fun j => by
    simp only [o, sh, opened, maskShare]
    rw [Finset.sum_add_distrib, Finset.mul_sum]
  constructor
  · intro j
    rw [ho]
    obtain ⟨z, h⟩ := (hx j).value
    exact ⟨2 ^ s * z + ∑ i, rVal i j, by rw [h]; ring⟩
  · rw [verdict_iff h0 hw]
    have e : (parties.map fun i => zShare s pub o (sh i).2 (key i)).sum = ∑ i, zShare s pub o (sh i).2 (key i) := by
      rw [(hp.map _).sum_eq, Finset.sum_map_toList]
    rw [e]
    have e2 : ∑ i, zShare s pub o (sh i).2 (key i) =
        ∑ j, low s (pub j) * (∑ i, (sh i).2 j - o j * ∑ i, key i) := by
      unfold zShare dot
      simp only
      rw [Finset.sum_sub_distrib, Finset.sum_comm, ← Finset.mul_sum, Finset.sum_mul, ← Finset.sum_sub_distrib]
      refine Finset.sum_congr rfl fun j _ => ?_
      rw [mul_sub]
      simp only [Finset.mul_sum, mul_assoc]
    rw [e2]
    have : (0 : Rg w) = ∑ j : Fin n, low s (pub j) * 0 := by simp
    rw [this]
    refine eqvSum _ fun j _ => eqvMul _ ?_
    obtain ⟨a, ha⟩ := (hx j).value
    obtain ⟨b, hb⟩ := (hx j).tag
    obtain ⟨c, hc⟩ := (hr j).value
    obtain ⟨d, hd⟩ := (hr j).tag
    have m2 : ∑ i, (sh i).2 j = ∑ i, mac i j + 2 ^ k * ∑ i, rMac i j := by
      simp only [sh, maskShare]
      rw [Finset.sum_add_distrib, Finset.mul_sum]
    rw [m2, ho, ha, hb, hc, hd]
    exact ⟨b + 2 ^ k * d - a * ∑ i, key i - 2 ^ k * c * ∑ i, key i, by ring⟩

/-! ## Counting -/

theorem spDvd {a : ℕ} {x : ℤ} : ∀ (b : ℕ) (U : ℤ), ¬ (2 ^ (b + 1) : ℤ) ∣ U → (2 ^ a : ℤ) ∣ x * U → (2 ^ (a - b) : ℤ) ∣ x := by
  have odd : ∀ U : ℤ, ¬ (2 : ℤ) ∣ U → (2 ^ a : ℤ) ∣ x * U → (2 ^ a : ℤ) ∣ x := fun U hU h =>
    Int.prime_two.pow_dvd_of_dvd_mul_right a hU h
  intro b
  induction b generalizing a with
  | zero =>
    intro U hU h
    rw [Nat.sub_zero]
    exact odd U (by simpa using hU) h
  | succ b ih =>
    intro U hU h
    by_cases h2 : (2 : ℤ) ∣ U
    · obtain ⟨V, rfl⟩ := h2
      have hV : ¬ (2 ^ (b + 1) : ℤ) ∣ V := fun hd => hU (by rw [pow_succ']; exact mul_dvd_mul_left 2 hd)
      cases a with
      | zero => simp
      | succ a =>
        have h3 : (2 ^ a : ℤ) ∣ x * V := by
          have : (2 * 2 ^ a : ℤ) ∣ 2 * (x * V) := by
            rw [← pow_succ']
            rwa [show 2 * (x * V) = x * (2 * V) by ring]
          exact (mul_dvd_mul_iff_left (by norm_num : (2 : ℤ) ≠ 0)).1 this
        have h4 := ih (fun U hU h => Int.prime_two.pow_dvd_of_dvd_mul_right a hU h) V hV h3
        rwa [show a + 1 - (b + 1) = a - b by omega]
    · exact dvd_trans (pow_dvd_pow 2 (by omega)) (odd U h2 h)

/-- How many keys satisfy a linear congruence. -/
theorem spKeys (k s : ℕ) (U D : ℤ) :
    (Finset.univ.filter fun κ : Fin (2 ^ s) => (2 ^ (k + s) : ℤ) ∣ κ * U - D).card ≤
      1 + ∑ i ∈ Finset.range s, 2 ^ i * (if (2 ^ (k + i + 1) : ℤ) ∣ U then 1 else 0) := by
  classical
  have geo : ∀ m, 1 + ∑ i ∈ Finset.range m, 2 ^ i = 2 ^ m := by
    intro m
    induction m with
    | zero => simp
    | succ m ih => rw [Finset.sum_range_succ, ← add_assoc, ih]; ring
  have lower : ∀ m, m ≤ s → (m = 0 ∨ (2 ^ (k + m) : ℤ) ∣ U) →
      2 ^ m ≤ 1 + ∑ i ∈ Finset.range s, 2 ^ i * (if (2 ^ (k + i + 1) : ℤ) ∣ U then 1 else 0) := by
    intro m hm h
    rw [← geo m]
    refine Nat.add_le_add_left ?_ 1
    have : Finset.range m ⊆ Finset.range s := Finset.range_mono hm
    refine le_trans (le_of_eq ?_) (Finset.sum_le_sum_of_subset this)
    refine Finset.sum_congr rfl fun i hi => ?_
    rw [Finset.mem_range] at hi
    rcases h with h | h
    · omega
    · rw [if_pos (dvd_trans (pow_dvd_pow 2 (by omega)) h), mul_one]
  obtain ⟨m, hm, h1, h2⟩ : ∃ m, m ≤ s ∧ (m = 0 ∨ (2 ^ (k + m) : ℤ) ∣ U) ∧ (m = s ∨ ¬ (2 ^ (k + m + 1) : ℤ) ∣ U) := by
    by_contra hc
    push Not at hc
    have all : ∀ m, m ≤ s → (m = 0 ∨ (2 ^ (k + m) : ℤ) ∣ U) := by
      intro m
      induction m with
      | zero => intro _; exact Or.inl rfl
      | succ m ih =>
        intro hm
        have := (hc m (by omega) (ih (by omega))).2
        exact Or.inr (by rwa [show k + (m + 1) = k + m + 1 by omega])
    exact (hc s le_rfl (all s le_rfl)).1 rfl
  refine le_trans ?_ (lower m hm h1)
  set A := Finset.univ.filter fun κ : Fin (2 ^ s) => (2 ^ (k + s) : ℤ) ∣ κ * U - D with hA
  have inj : Set.InjOn (fun κ : Fin (2 ^ s) => κ.val / 2 ^ (s - m)) A := by
    intro a ha b hb hab
    have ha : (2 ^ (k + s) : ℤ) ∣ a * U - D := (Finset.mem_filter.1 ha).2
    have hb : (2 ^ (k + s) : ℤ) ∣ b * U - D := (Finset.mem_filter.1 hb).2
    have hd : (2 ^ (s - m) : ℤ) ∣ (a : ℤ) - b := by
      rcases h2 with h2 | h2
      · rw [h2, Nat.sub_self, pow_zero]
        exact one_dvd _
      · have := dvd_sub ha hb
        rw [show (a : ℤ) * U - D - (b * U - D) = (a - b) * U by ring] at this
        have := spDvd (k + m) U h2 this
        rwa [show k + s - (k + m) = s - m by omega] at this
    dsimp only at hab
    have e1 := Nat.div_add_mod a.val (2 ^ (s - m))
    have e2 := Nat.div_add_mod b.val (2 ^ (s - m))
    have hm' : a.val % 2 ^ (s - m) = b.val % 2 ^ (s - m) := by
      have h3 : (b.val : ℤ) ≡ a.val [ZMOD ((2 ^ (s - m) : ℕ) : ℤ)] := Int.modEq_iff_dvd.2 (by push_cast; exact hd)
      exact ((Int.natCast_modEq_iff).1 h3).symm
    refine Fin.ext ?_
    rw [← e1, ← e2, hab, hm']
  have img : A.image (fun κ : Fin (2 ^ s) => κ.val / 2 ^ (s - m)) ⊆ Finset.range (2 ^ m) := by
    intro y hy
    obtain ⟨κ, -, rfl⟩ := Finset.mem_image.1 hy
    rw [Finset.mem_range, Nat.div_lt_iff_lt_mul (by positivity), ← pow_add, show m + (s - m) = s by omega]
    exact κ.2
  rw [← Finset.card_image_of_injOn inj]
  exact (Finset.card_le_card img).trans (by rw [Finset.card_range])

/-- How many coins make a linear combination divisible. -/
theorem spCoins {s n k t : ℕ} (δ : Fin n → ℤ) (j0 : Fin n) (hδ : ¬ (2 ^ (k + 1) : ℤ) ∣ δ j0) (ht : t ≤ s) (ht2 : 0 < t) (E : ℤ) :
    (Finset.univ.filter fun r : Fin n → Fin (2 ^ s) => (2 ^ (k + t) : ℤ) ∣ ∑ j, (r j : ℤ) * δ j - E).card * 2 ^ t ≤
      (2 ^ s) ^ n := by
  classical
  set A := Finset.univ.filter fun r : Fin n → Fin (2 ^ s) => (2 ^ (k + t) : ℤ) ∣ ∑ j, (r j : ℤ) * δ j - E with hA
  have hs : 0 < 2 ^ s := by positivity
  let φ : (Fin n → Fin (2 ^ s)) × Fin (2 ^ t) → (Fin n → Fin (2 ^ s)) := fun p =>
    Function.update p.1 j0 ⟨(p.1 j0 + p.2) % 2 ^ s, Nat.mod_lt _ hs⟩
  have inj : Set.InjOn φ ((A ×ˢ (Finset.univ : Finset (Fin (2 ^ t))) : Finset _) : Set _) := by
    rintro ⟨r, a⟩ hra ⟨r', a'⟩ hra' h
    have hr : (2 ^ (k + t) : ℤ) ∣ ∑ j, (r j : ℤ) * δ j - E := (Finset.mem_filter.1 (Finset.mem_product.1 (Finset.mem_coe.1 hra)).1).2
    have hr' : (2 ^ (k + t) : ℤ) ∣ ∑ j, (r' j : ℤ) * δ j - E := (Finset.mem_filter.1 (Finset.mem_product.1 (Finset.mem_coe.1 hra')).1).2
    have off : ∀ j, j ≠ j0 → r j = r' j := fun j hj => by
      have := congrFun h j
      simpa only [φ, Function.update_of_ne hj] using this
    have at0 : ((r j0 : ℕ) + a) % 2 ^ s = ((r' j0 : ℕ) + a') % 2 ^ s := by
      have := congrFun h j0
      simpa only [φ, Function.update_self, Fin.mk.injEq] using this
    have d1 : ∑ j, (r j : ℤ) * δ j - E - (∑ j, (r' j : ℤ) * δ j - E) = ((r j0 : ℤ) - r' j0) * δ j0 := by
      have : ∑ j, (r j : ℤ) * δ j - E - (∑ j, (r' j : ℤ) * δ j - E) = ∑ j, ((r j : ℤ) - r' j) * δ j := by
        rw [show ∑ j, (r j : ℤ) * δ j - E - (∑ j, (r' j : ℤ) * δ j - E) =
          ∑ j, (r j : ℤ) * δ j - ∑ j, (r' j : ℤ) * δ j by ring, ← Finset.sum_sub_distrib]
        exact Finset.sum_congr rfl fun j _ => by ring
      rw [this]
      refine Finset.sum_eq_single j0 (fun j _ hj => ?_) (fun h => absurd (Finset.mem_univ _) h)
      rw [off j hj]
      ring
    have d2 : (2 ^ t : ℤ) ∣ (r j0 : ℤ) - r' j0 := by
      have := dvd_sub hr hr'
      rw [d1] at this
      have := spDvd k _ hδ this
      rwa [show k + t - k = t by omega] at this
    have m1 : (r j0 : ℕ) % 2 ^ t = (r' j0 : ℕ) % 2 ^ t := by
      have h3 : ((r' j0 : ℕ) : ℤ) ≡ (r j0 : ℕ) [ZMOD ((2 ^ t : ℕ) : ℤ)] := Int.modEq_iff_dvd.2 (by push_cast; exact d2)
      exact ((Int.natCast_modEq_iff).1 h3).symm
    have m2 : (r j0 + a : ℕ) ≡ r' j0 + a' [MOD 2 ^ t] :=
      Nat.ModEq.of_dvd (pow_dvd_pow 2 ht) at0
    have m3 : (a : ℕ) ≡ a' [MOD 2 ^ t] := Nat.ModEq.add_left_cancel m1 m2
    have ea : a = a' := Fin.ext (m3.eq_of_lt_of_lt a.2 a'.2)
    subst ea
    have m4 : (r j0 : ℕ) ≡ r' j0 [MOD 2 ^ s] := Nat.ModEq.add_right_cancel' _ at0
    have e0 : r j0 = r' j0 := Fin.ext (m4.eq_of_lt_of_lt (r j0).2 (r' j0).2)
    refine Prod.ext (funext fun j => ?_) rfl
    by_cases hj : j = j0
    · rw [hj]; exact e0
    · exact off j hj
  have := Finset.card_le_card_of_injOn φ (fun _ _ => Finset.mem_coe.2 (Finset.mem_univ _)) inj
  rw [Finset.card_product, Finset.card_univ, Fintype.card_fin, Finset.card_univ, Fintype.card_fun, Fintype.card_fin,
    Fintype.card_fin] at this
  exact this

theorem spCount {s n k : ℕ} (hk : 0 < k) (hs : 0 < s) (δ : Fin n → ℤ) {j0 : Fin n} (hδ : ¬ (2 ^ k : ℤ) ∣ δ j0)
    (D : (Fin n → Fin (2 ^ s)) → ℤ) :
    4 * (Finset.univ.filter fun p : Fin (2 ^ s) × (Fin n → Fin (2 ^ s)) =>
      (2 ^ (k + s) : ℤ) ∣ p.1 * (∑ j, (p.2 j : ℤ) * δ j) - D p.2).card ≤ (s + 5) * (2 ^ s) ^ n := by
  classical
  obtain ⟨k, rfl⟩ : ∃ q, k = q + 1 := ⟨k - 1, by omega⟩
  set N := (2 ^ s) ^ n with hN
  have cardU : (Finset.univ : Finset (Fin n → Fin (2 ^ s))).card = N := by
    rw [Finset.card_univ, Fintype.card_fun, Fintype.card_fin, Fintype.card_fin]
  have e1 : (Finset.univ.filter fun p : Fin (2 ^ s) × (Fin n → Fin (2 ^ s)) =>
      (2 ^ (k + 1 + s) : ℤ) ∣ p.1 * (∑ j, (p.2 j : ℤ) * δ j) - D p.2).card =
      ∑ r : Fin n → Fin (2 ^ s), (Finset.univ.filter fun κ : Fin (2 ^ s) =>
        (2 ^ (k + 1 + s) : ℤ) ∣ κ * (∑ j, (r j : ℤ) * δ j) - D r).card := by
    simp only [Finset.card_filter]
    rw [Fintype.sum_prod_type, Finset.sum_comm]
  have e2 : ∑ r : Fin n → Fin (2 ^ s), (Finset.univ.filter fun κ : Fin (2 ^ s) =>
        (2 ^ (k + 1 + s) : ℤ) ∣ κ * (∑ j, (r j : ℤ) * δ j) - D r).card ≤
      N + ∑ i ∈ Finset.range s, 2 ^ i * (Finset.univ.filter fun r : Fin n → Fin (2 ^ s) =>
        (2 ^ (k + 1 + i + 1) : ℤ) ∣ ∑ j, (r j : ℤ) * δ j).card := by
    refine le_trans (Finset.sum_le_sum fun r _ => spKeys (k + 1) s _ _) (le_of_eq ?_)
    rw [Finset.sum_add_distrib, Finset.sum_const, cardU, smul_eq_mul, mul_one, Finset.sum_comm]
    congr 1
    refine Finset.sum_congr rfl fun i _ => ?_
    rw [← Finset.mul_sum, Finset.card_filter]
  have e3 : ∀ i, i < s → 4 * (2 ^ i * (Finset.univ.filter fun r : Fin n → Fin (2 ^ s) =>
        (2 ^ (k + 1 + i + 1) : ℤ) ∣ ∑ j, (r j : ℤ) * δ j).card) ≤ N + if i = s - 1 then N else 0 := by
    intro i hi
    by_cases h : i = s - 1
    · rw [if_pos h]
      have := spCoins (s := s) (k := k) (t := s) δ j0 hδ le_rfl hs 0
      simp only [sub_zero] at this
      have sub : (Finset.univ.filter fun r : Fin n → Fin (2 ^ s) => (2 ^ (k + 1 + i + 1) : ℤ) ∣ ∑ j, (r j : ℤ) * δ j).card ≤
          (Finset.univ.filter fun r : Fin n → Fin (2 ^ s) => (2 ^ (k + s) : ℤ) ∣ ∑ j, (r j : ℤ) * δ j).card := by
        refine Finset.card_le_card fun r hr => ?_
        rw [Finset.mem_filter] at hr ⊢
        exact ⟨hr.1, dvd_trans (pow_dvd_pow 2 (by omega)) hr.2⟩
      have h2 : 2 ^ s = 2 * 2 ^ i := by rw [← pow_succ']; congr 1; omega
      have h4 := (Nat.mul_le_mul_right (2 ^ s) sub).trans this
      set c := (Finset.univ.filter fun r : Fin n → Fin (2 ^ s) =>
        (2 ^ (k + 1 + i + 1) : ℤ) ∣ ∑ j, (r j : ℤ) * δ j).card with hc
      have h5 : c * 2 ^ s = c * (2 * 2 ^ i) := congrArg (c * ·) h2
      calc 4 * (2 ^ i * c) = 2 * (c * (2 * 2 ^ i)) := by ring
        _ = 2 * (c * 2 ^ s) := by rw [h5]
        _ ≤ 2 * N := Nat.mul_le_mul_left 2 h4
        _ = N + N := by ring
    · rw [if_neg h, add_zero]
      have := spCoins (s := s) (k := k) (t := i + 2) δ j0 hδ (by omega) (by omega) 0
      simp only [sub_zero] at this
      rw [show k + (i + 2) = k + 1 + i + 1 by omega] at this
      refine le_trans (le_of_eq ?_) this
      ring
  rw [e1]
  have e4 : ∑ i ∈ Finset.range s, 4 * (2 ^ i * (Finset.univ.filter fun r : Fin n → Fin (2 ^ s) =>
        (2 ^ (k + 1 + i + 1) : ℤ) ∣ ∑ j, (r j : ℤ) * δ j).card) ≤ s * N + N := by
    refine le_trans (Finset.sum_le_sum fun i hi => e3 i (Finset.mem_range.1 hi)) (le_of_eq ?_)
    rw [Finset.sum_add_distrib, Finset.sum_const, Finset.card_range, smul_eq_mul, Finset.sum_ite_eq',
      if_pos (Finset.mem_range.2 (by omega))]
  rw [← Finset.mul_sum] at e4
  calc _ ≤ 4 * (N + ∑ i ∈ Finset.range s, 2 ^ i * (Finset.univ.filter fun r : Fin n → Fin (2 ^ s) =>
        (2 ^ (k + 1 + i + 1) : ℤ) ∣ ∑ j, (r j : ℤ) * δ j).card) := Nat.mul_le_mul_left 4 e2
    _ ≤ (s + 5) * N := by nlinarith [e4]

/-! ## A changed value is caught -/

theorem eqvInt {w m : ℕ} (hm : m ≤ w) (a : ℤ) (h : Eqv m (a : ZMod (2 ^ w)) 0) : (2 ^ m : ℤ) ∣ a := by
  have : NeZero (2 ^ w) := ⟨by positivity⟩
  obtain ⟨z, h⟩ := h
  have h1 : (a : ZMod (2 ^ w)) = ((2 ^ m * z.val : ℤ) : ZMod (2 ^ w)) := by
    push_cast
    rw [ZMod.natCast_zmod_val, h]
    ring
  rw [ZMod.intCast_eq_intCast_iff_dvd_sub] at h1
  push_cast at h1
  have h2 := dvd_trans (pow_dvd_pow (2 : ℤ) hm) h1
  have e : a = 2 ^ m * z.val - (2 ^ m * z.val - a) := by ring
  rw [e]
  exact dvd_sub (dvd_mul_right _ _) h2

theorem c61_sound {w k s n : ℕ} (hk : 0 < k) (hs : 0 < s) (hw : k + s ≤ w) (x δ : Fin n → Rg w) (j0 : Fin n)
    (hδ : ¬ Eqv k (δ j0) 0) (c rest : Rg w) (others : Fin n → Rg w) (mac : Fin (2 ^ s) → Fin n → Rg w)
    (hmac : ∀ κ j, Eqv (k + s) (mac κ j + others j) ((c + (κ.val : Rg w) + rest) * x j))
    (pub : (Fin n → Fin (2 ^ s)) → Fin n → Rg w) (hpub : ∀ r j, (pub r j).val % 2 ^ s = r j)
    (adv : (Fin n → Fin (2 ^ s)) → List (Rg w)) :
    4 * (Finset.univ.filter fun p : Fin (2 ^ s) × (Fin n → Fin (2 ^ s)) =>
      verdict (k + s) (zShare s (pub p.2) (fun j => x j + δ j) (mac p.1) (c + (p.1.val : Rg w)) :: adv p.2) = true).card ≤
      (s + 5) * (2 ^ s) ^ n := by
  have : NeZero (2 ^ w) := ⟨by positivity⟩
  have hδ' : ¬ (2 ^ k : ℤ) ∣ ((δ j0).val : ℤ) := fun h => hδ ((eqv_iff (by omega) _ _).2 (by simpa using h))
  let D : (Fin n → Fin (2 ^ s)) → Rg w := fun r =>
    rest * (∑ j, ((r j).val : Rg w) * x j) - (∑ j, ((r j).val : Rg w) * others j) -
      c * (∑ j, ((r j).val : Rg w) * δ j) + (adv r).sum
  refine le_trans (Nat.mul_le_mul_left 4 (Finset.card_le_card ?_))
    (spCount hk hs (fun j => ((δ j).val : ℤ)) hδ' fun r => ((D r).val : ℤ))
  intro p hp
  obtain ⟨κ, r⟩ := p
  rw [Finset.mem_filter] at hp ⊢
  refine ⟨hp.1, ?_⟩
  have hv := (verdict_iff (by omega) hw _).1 hp.2
  have hl : ∀ j, low s (pub r j) = ((r j).val : Rg w) := fun j => by
    unfold low
    rw [hpub]
  rw [List.sum_cons] at hv
  unfold zShare dot at hv
  simp only [hl] at hv
  choose q hq using hmac
  have hm : ∀ j, mac κ j = (c + (κ.val : Rg w) + rest) * x j - others j + 2 ^ (k + s) * q κ j := fun j => by
    have := hq κ j
    linear_combination this
  have key : Eqv (k + s) (((κ : ℤ) * (∑ j, (r j : ℤ) * ((δ j).val : ℤ)) - ((D r).val : ℤ) : ℤ) : Rg w) 0 := by
    obtain ⟨z, hz⟩ := hv
    have e1 : ∑ j, ((r j).val : Rg w) * mac κ j = (c + (κ.val : Rg w) + rest) * (∑ j, ((r j).val : Rg w) * x j) -
        ∑ j, ((r j).val : Rg w) * others j + 2 ^ (k + s) * ∑ j, ((r j).val : Rg w) * q κ j := by
      rw [Finset.mul_sum, Finset.mul_sum, ← Finset.sum_sub_distrib, ← Finset.sum_add_distrib]
      refine Finset.sum_congr rfl fun j _ => ?_
      rw [hm]
      ring
    have e2 : ∑ j, ((r j).val : Rg w) * (x j + δ j) = (∑ j, ((r j).val : Rg w) * x j) +
        ∑ j, ((r j).val : Rg w) * δ j := by
      rw [← Finset.sum_add_distrib]
      exact Finset.sum_congr rfl fun j _ => by ring
    rw [e1, e2] at hz
    push_cast
    simp only [ZMod.natCast_zmod_val]
    refine ⟨(∑ j, ((r j).val : Rg w) * q κ j) - z, ?_⟩
    simp only [D]
    linear_combination -hz
  exact eqvInt hw _ key

/-! ## Commitments -/

theorem spCollect {hash : Bytes → Bytes} {rankStr : ℕ → Bytes} {rank : ℕ} {z : Bytes} {cmts opens : ℕ → Bytes} :
    ∀ {m : ℕ} {res : Bool} {zs : List Bytes}, collect hash rankStr rank z cmts opens m = some (res, zs) →
      zs = (List.range m).map (fun i => if i = rank then z else (opens i).take z.length) ∧
      (∀ i, i < m → i ≠ rank → z.length ≤ (opens i).length) ∧
      (res = true ↔ ∀ i, i < m → i ≠ rank → commit hash rankStr i ((opens i).take z.length)
        (((opens i).drop z.length).take 16) = cmts i) := by
  intro m
  induction m with
  | zero =>
    intro res zs h
    simp only [collect, Option.some.injEq, Prod.mk.injEq] at h
    obtain ⟨rfl, rfl⟩ := h
    refine ⟨rfl, by omega, ?_⟩
    simp
  | succ m ih =>
    intro res zs h
    unfold collect at h
    cases hc : collect hash rankStr rank z cmts opens m with
    | none => simp [hc] at h
    | some p =>
      obtain ⟨res', zs'⟩ := p
      obtain ⟨h1, h2, h3⟩ := ih hc
      simp only [hc, Option.bind_eq_bind, Option.bind_some] at h
      by_cases hm : m = rank
      · rw [if_pos hm, Option.some.injEq, Prod.mk.injEq] at h
        obtain ⟨rfl, rfl⟩ := h
        refine ⟨by rw [List.range_succ, List.map_append, ← h1, List.map_singleton, if_pos hm], ?_, ?_⟩
        · intro i hi hr
          exact h2 i (by omega) hr
        · rw [h3]
          exact ⟨fun h i hi hr => h i (by omega) hr, fun h i hi hr => h i (by omega) hr⟩
      · rw [if_neg hm] at h
        by_cases hl : z.length ≤ (opens m).length
        · simp only [guard, if_pos hl, Option.pure_def, Option.bind_some, Option.some.injEq, Prod.mk.injEq] at h
          obtain ⟨rfl, rfl⟩ := h
          refine ⟨by rw [List.range_succ, List.map_append, ← h1, List.map_singleton, if_neg hm], ?_, ?_⟩
          · intro i hi hr
            rcases Nat.lt_succ_iff_lt_or_eq.1 hi with hi | rfl
            · exact h2 i hi hr
            · exact hl
          · rw [Bool.and_eq_true, h3, beq_iff_eq]
            constructor
            · rintro ⟨ha, hb⟩ i hi hr
              rcases Nat.lt_succ_iff_lt_or_eq.1 hi with hi | rfl
              · exact ha i hi hr
              · exact hb
            · intro h
              exact ⟨fun i hi hr => h i (by omega) hr, h m (by omega) hm⟩
        · simp [guard, if_neg hl] at h

theorem c61_commit {hash : Bytes → Bytes} {rankStr : ℕ → Bytes} {rank m : ℕ} {z : Bytes} {cmts opens : ℕ → Bytes}
    {res : Bool} {zs : List Bytes} (h : collect hash rankStr rank z cmts opens m = some (res, zs)) :
    zs.length = m ∧ (rank < m → zs[rank]? = some z) ∧
    (res = true ↔ ∀ i, i < m → i ≠ rank → ∃ zi ri, zs[i]? = some zi ∧ zi.length = z.length ∧
      (zi ++ ri) = (opens i).take (z.length + 16) ∧ hash (rankStr i ++ zi ++ ri) = cmts i) := by
  obtain ⟨h1, h2, h3⟩ := spCollect h
  have get : ∀ i, i < m → zs[i]? = some (if i = rank then z else (opens i).take z.length) := fun i hi => by
    rw [h1, List.getElem?_map, List.getElem?_range hi]
    rfl
  refine ⟨by rw [h1]; simp, fun hr => by rw [get _ hr, if_pos rfl], ?_⟩
  rw [h3]
  refine forall_congr' fun i => forall_congr' fun hi => forall_congr' fun hr => ?_
  rw [get i hi, if_neg hr]
  constructor
  · intro hc
    refine ⟨_, ((opens i).drop z.length).take 16, rfl, ?_, ?_, hc⟩
    · rw [List.length_take]
      exact Nat.min_eq_left (h2 i hi hr)
    · rw [List.take_add]
  · rintro ⟨zi, ri, e, hl, ho, hc⟩
    rw [Option.some.injEq] at e
    subst e
    rw [List.take_add] at ho
    have := List.append_cancel_left ho
    rw [← this]
    exact hc

/-- Two accepted openings of the same commitments carry the same messages, or they contain a collision of the hash. -/
theorem c61_binding {hash : Bytes → Bytes} {rankStr : ℕ → Bytes} {rank m : ℕ} {z z' : Bytes} {cmts opens opens' : ℕ → Bytes}
    {zs zs' : List Bytes} (hz : z.length = z'.length)
    (h : collect hash rankStr rank z cmts opens m = some (true, zs))
    (h' : collect hash rankStr rank z' cmts opens' m = some (true, zs')) :
    (∀ i, i < m → i ≠ rank → zs[i]? = zs'[i]?) ∨ ∃ a b : Bytes, a ≠ b ∧ hash a = hash b := by
  by_contra hc
  push Not at hc
  obtain ⟨⟨i, hi, hr, hne⟩, hcol⟩ := hc
  obtain ⟨zi, ri, e1, l1, -, c1⟩ := (c61_commit h).2.2.1 rfl i hi hr
  obtain ⟨zi', ri', e2, l2, -, c2⟩ := (c61_commit h').2.2.1 rfl i hi hr
  refine hcol (rankStr i ++ zi ++ ri) (rankStr i ++ zi' ++ ri') (fun e => hne ?_) (c1.trans c2.symm)
  rw [List.append_assoc, List.append_assoc] at e
  have e := List.append_cancel_left e
  have := (List.append_inj e (by rw [l1, l2, hz])).1
  rw [e1, e2, this]

/-- Honest commitments and openings are accepted. -/
theorem c61_honest {hash : Bytes → Bytes} {rankStr : ℕ → Bytes} {rank m len : ℕ} (zs rs : ℕ → Bytes)
    (hz : ∀ i, (zs i).length = len) (hr : ∀ i, (rs i).length = 16) :
    collect hash rankStr rank (zs rank) (fun i => commit hash rankStr i (zs i) (rs i)) (fun i => zs i ++ rs i) m =
      some (true, (List.range m).map zs) := by
  induction m with
  | zero => rfl
  | succ m ih =>
    unfold collect
    simp only [ih, Option.bind_eq_bind, Option.bind_some]
    by_cases hm : m = rank
    · rw [if_pos hm, List.range_succ, List.map_append, List.map_singleton, hm]
    · rw [if_neg hm]
      have hl : (zs rank).length ≤ (zs m ++ rs m).length := by rw [List.length_append, hz, hz]; omega
      have e : (zs rank).length = (zs m).length := by rw [hz, hz]
      simp only [guard, if_pos hl, Option.pure_def, Option.bind_some]
      rw [e, List.take_left, List.drop_left, List.take_of_length_le (by rw [hr]), List.range_succ, List.map_append,
        List.map_singleton]
      simp

/-- For any seeds of the others, the public seed is a bijective function of the own seed. -/
theorem c61_coin (pre post : List (ZMod (2 ^ 128))) : Function.Bijective fun own => publicSeed (pre ++ own :: post) := by
  have e : (fun own => publicSeed (pre ++ own :: post)) = fun own => own + (pre.sum + post.sum) := by
    funext own
    unfold publicSeed
    rw [← List.sum_eq_foldl, List.sum_append, List.sum_cons]
    ring
  rw [e]
  exact ⟨add_left_injective _, fun y => ⟨y - (pre.sum + post.sum), by ring⟩⟩

/-! ## Examples -/

/-- Two parties with keys 1 and 3 authenticate 5 (as 9 + 252) with `k = 3`, `s = 2` in the ring of 8 bits. -/
example : Auth (w := 8) (3 + 2) ![1, 3] 5 ![9, 252] ![100, 176] := ⟨⟨0, by decide⟩, ⟨8, by decide +kernel⟩⟩

/-- Authenticated value and mask: the check passes, and fails when the value is changed by one. -/
example :
    let a : Fin 2 → (Fin 1 → Rg 8) × (Fin 1 → Rg 8) := ![maskShare 3 ![9] ![100] ![2] ![7], maskShare 3 ![252] ![176] ![1] ![5]]
    let o := opened fun i => (a i).1
    o = ![29] ∧
      verdict 5 [zShare 2 ![7] o (a 0).2 1, zShare 2 ![7] o (a 1).2 3] = true ∧
      verdict 5 [zShare 2 ![7] (fun j => o j + 1) (a 0).2 1, zShare 2 ![7] (fun j => o j + 1) (a 1).2 3] = false := by
  decide +kernel

/-- `c61_sound` for one value 5 opened as 6, `k = 1`, `s = 1`: of four pairs of key and coin at most three are accepted. -/
example : (Finset.univ.filter fun p : Fin (2 ^ 1) × (Fin 1 → Fin (2 ^ 1)) =>
      verdict (1 + 1) (zShare (w := 4) 1 (fun j => ((p.2 j).val : Rg 4)) ![5 + 1] ![(p.1.val + 2) * 5 - 7] (p.1.val : Rg 4) ::
        [3 * (p.2 0).val]) = true).card = 2 := by
  decide +kernel

example : ¬ Eqv (w := 4) 1 (1 : Rg 4) 0 := by
  rw [eqv_iff (by norm_num)]
  decide

/-- A commitment that is not opened to what was committed to is noticed. -/
example :
    let hash : Bytes → Bytes := fun b => [b.sum, b.length]
    let rk : ℕ → Bytes := fun i => [48 + i]
    let rnd : Bytes := List.replicate 16 9
    let cm : ℕ → Bytes := fun i => commit hash rk i [i, 5] rnd
    collect hash rk 0 [0, 5] cm (fun i => [i, 5] ++ rnd) 2 = some (true, [[0, 5], [1, 5]]) ∧
    collect hash rk 0 [0, 5] cm (fun i => [i, 6] ++ rnd) 2 = some (false, [[0, 5], [1, 6]]) := by
  decide +kernel

end Spu.Props

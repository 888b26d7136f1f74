import Verif.Model.Radix
import Verif.Props.Perm
import Verif.Props.Reduce
import Mathlib.Data.Fintype.Card
import Mathlib.Data.Finset.Card
import Mathlib.Data.Fintype.EquivFin
import Mathlib.Algebra.Group.End
import Mathlib.Data.List.Lex

set_option autoImplicit false

/-! # C33: one round of the radix sort -/

namespace Spu.Props
open Spu.Model Spu.Model.Radix Spu.Model.Perm

variable {w N : ℕ}

/-- `τ` is the stable sorting permutation for the keys `K`: it moves element `i` to its place. -/
def Rank {κ : Type} [LT κ] (τ : Equiv.Perm (Fin N)) (K : Fin N → κ) : Prop :=
  ∀ i j, τ i < τ j ↔ K i < K j ∨ (K i = K j ∧ i < j)

theorem rank_exists (pos : Fin N → ℕ) (hinj : Function.Injective pos) :
    ∃ π : Equiv.Perm (Fin N), (∀ i, (π i).val = (Finset.univ.filter fun j => pos j < pos i).card) ∧
      ∀ i j, π i < π j ↔ pos i < pos j := by
  have hlt : ∀ i, (Finset.univ.filter fun j => pos j < pos i).card < N := by
    intro i
    have h : (Finset.univ.filter fun j => pos j < pos i) ⊂ Finset.univ :=
      Finset.ssubset_univ_iff.2 (fun h => by
        have : i ∈ Finset.univ.filter fun j => pos j < pos i := by rw [h]; simp
        simp at this)
    simpa using Finset.card_lt_card h
  have hmono : ∀ i j, pos i < pos j →
      (Finset.univ.filter fun k => pos k < pos i).card < (Finset.univ.filter fun k => pos k < pos j).card := by
    intro i j h
    refine Finset.card_lt_card ⟨fun k hk => ?_, fun hs => ?_⟩
    · simp at hk ⊢; omega
    · have := hs (show i ∈ Finset.univ.filter fun k => pos k < pos j by simpa using h)
      simp at this
  let f : Fin N → Fin N := fun i => ⟨_, hlt i⟩
  have hf : Function.Injective f := by
    intro i j h
    by_contra hne
    have hne' : pos i ≠ pos j := fun h => hne (hinj h)
    have hv : (Finset.univ.filter fun k => pos k < pos i).card = (Finset.univ.filter fun k => pos k < pos j).card :=
      congrArg Fin.val h
    rcases Nat.lt_or_gt_of_ne hne' with h' | h'
    · exact absurd hv (hmono _ _ h').ne
    · exact absurd hv (hmono _ _ h').ne'
  refine ⟨Equiv.ofBijective f (Finite.injective_iff_bijective.1 hf), fun i => rfl, fun i j => ?_⟩
  constructor
  · intro h
    have h : f i < f j := h
    by_contra hn
    rcases Nat.eq_or_lt_of_le (not_lt.1 hn) with e | e
    · rw [hinj e] at h; exact lt_irrefl _ h
    · exact lt_asymm h (hmono _ _ e)
  · intro h; exact hmono _ _ h

/-- place of element `i` in the concatenated class indicators -/
def slot (cls : Fin N → ℕ) (i : Fin N) : ℕ := cls i * N + i.val

theorem slot_lt_iff (cls : Fin N → ℕ) (i j : Fin N) :
    slot cls i < slot cls j ↔ cls i < cls j ∨ (cls i = cls j ∧ i < j) := by
  unfold slot
  have hi := i.isLt
  have hj := j.isLt
  rw [Fin.lt_def]
  rcases lt_trichotomy (cls i) (cls j) with h | h | h
  · have : (cls i + 1) * N ≤ cls j * N := Nat.mul_le_mul_right _ h
    rw [Nat.add_mul] at this
    constructor
    · intro _; exact .inl h
    · intro _; omega
  · rw [h]; simp
  · have : (cls j + 1) * N ≤ cls i * N := Nat.mul_le_mul_right _ h
    rw [Nat.add_mul] at this
    constructor
    · intro _; omega
    · intro _; omega

theorem slot_inj (cls : Fin N → ℕ) : Function.Injective (slot cls) := by
  intro i j h
  have h1 := (slot_lt_iff cls i j).not.1 (by omega)
  have h2 := (slot_lt_iff cls j i).not.1 (by omega)
  rw [not_or, not_and] at h1 h2
  have e : cls i = cls j := by omega
  have := h1.2 e; have := h2.2 e.symm
  omega

/-- the indicator vectors of the classes `0, …, B - 1` -/
def Indicators (segs : List (Fin N → BitVec w)) (cls : Fin N → ℕ) : Prop :=
  (∀ i, cls i < segs.length) ∧ ∀ c (h : c < segs.length) i, segs[c] i = if cls i = c then 1 else 0

theorem cat_at {segs : List (Fin N → BitVec w)} {cls : Fin N → ℕ} (h : Indicators segs cls) {c : ℕ}
    (hc : c < segs.length) (i : Fin N) : cat segs (c * N + i.val) = if cls i = c then 1 else 0 := by
  have hN : 0 < N := lt_of_le_of_lt (Nat.zero_le _) i.isLt
  have e1 : (c * N + i.val) % N = i.val := by rw [Nat.mul_comm, Nat.mul_add_mod, Nat.mod_eq_of_lt i.isLt]
  have e2 : (c * N + i.val) / N = c := by
    rw [Nat.mul_comm, Nat.mul_add_div hN, Nat.div_eq_of_lt i.isLt, Nat.add_zero]
  unfold cat
  rw [dif_pos (by rw [e1]; exact i.isLt), e2, List.getD_eq_getElem?_getD, List.getElem?_eq_getElem hc, Option.getD_some]
  rw [← h.2 c hc]
  exact congrArg _ (Fin.ext e1)

theorem cat_bit {segs : List (Fin N → BitVec w)} {cls : Fin N → ℕ} (h : Indicators segs cls) {k : ℕ}
    (hk : k < segs.length * N) : cat segs k = if ∃ j, slot cls j = k then 1 else 0 := by
  have hN : 0 < N := by rcases Nat.eq_zero_or_pos N with h0 | h0; · (subst h0; omega)
                        · exact h0
  have hc : k / N < segs.length := Nat.div_lt_of_lt_mul (by rwa [Nat.mul_comm])
  have hk' : k / N * N + k % N = k := by rw [Nat.mul_comm]; exact Nat.div_add_mod k N
  have := cat_at h hc ⟨k % N, Nat.mod_lt _ hN⟩
  simp only [hk'] at this
  rw [this]
  congr 1
  apply propext
  constructor
  · intro e; exact ⟨⟨k % N, Nat.mod_lt _ hN⟩, by unfold slot; rw [e]; exact hk'⟩
  · rintro ⟨j, hj⟩
    have e1 : k % N = j.val := by
      rw [← hj]; unfold slot; rw [Nat.mul_comm, Nat.mul_add_mod, Nat.mod_eq_of_lt j.isLt]
    have e2 : k / N = cls j := by
      rw [← hj]; unfold slot; rw [Nat.mul_comm, Nat.mul_add_div hN, Nat.div_eq_of_lt j.isLt, Nat.add_zero]
    rw [e2]; congr 1; exact Fin.ext e1

theorem scanTo_count {f : ℕ → BitVec w} {cls : Fin N → ℕ} {L : ℕ}
    (hf : ∀ k, k < L → f k = if ∃ j, slot cls j = k then 1 else 0) (k : ℕ) (hk : k < L) :
    scanTo (· + ·) f k = BitVec.ofNat w (Finset.univ.filter fun j => slot cls j ≤ k).card := by
  have hsplit : ∀ k, (Finset.univ.filter fun j => slot cls j ≤ k).card =
      (Finset.univ.filter fun j => slot cls j < k).card + if ∃ j, slot cls j = k then 1 else 0 := by
    intro k
    by_cases hx : ∃ j, slot cls j = k
    · obtain ⟨j, hj⟩ := hx
      have : (Finset.univ.filter fun i => slot cls i ≤ k) = insert j (Finset.univ.filter fun i => slot cls i < k) := by
        ext i
        simp only [Finset.mem_filter, Finset.mem_univ, true_and, Finset.mem_insert]
        constructor
        · intro h
          rcases Nat.eq_or_lt_of_le h with e | e
          · exact .inl (slot_inj cls (e.trans hj.symm))
          · exact .inr e
        · rintro (rfl | h) <;> omega
      rw [this, Finset.card_insert_of_notMem (by simp [hj]), if_pos ⟨j, hj⟩]
    · rw [if_neg hx, Nat.add_zero]
      congr 1
      ext i
      simp only [Finset.mem_filter, Finset.mem_univ, true_and]
      have : slot cls i ≠ k := fun h => hx ⟨i, h⟩
      omega
  have hbit : ∀ p : Prop, [Decidable p] → (if p then (1 : BitVec w) else 0) = BitVec.ofNat w (if p then 1 else 0) := by
    intro p _; split <;> rfl
  induction k with
  | zero =>
    simp only [scanTo]
    rw [hf 0 hk, hsplit 0]
    have : (Finset.univ.filter fun j => slot cls j < 0) = ∅ := by ext; simp
    rw [this, Finset.card_empty, Nat.zero_add]
    exact hbit _
  | succ k ih =>
    simp only [scanTo]
    rw [ih (by omega), hf _ hk, hsplit (k + 1), hbit, ← BitVec.ofNat_add]
    congr 3
    ext i
    simp [Nat.lt_succ_iff]

theorem prefixSum_spec (L : ℕ) (f : ℕ → BitVec w) :
    ∃ ps, prefixSum L f = some ps ∧ ∀ k, k < L → ps k = scanTo (· + ·) f k := by
  obtain ⟨r, h1, _, _, h4⟩ := scan_ok (α := BitVec w) (· + ·) (fun a b c => BitVec.add_assoc a b c) L
    ⟨1, L, fun _ k => f k⟩ Nat.lt_two_pow_self
  exact ⟨r.get 0, by unfold prefixSum; rw [h1]; rfl, fun k hk => h4 0 k (by simp) hk⟩

/-- The prefix sums at the marked places are the ranks. -/
theorem bv_core {segs : List (Fin N → BitVec w)} {cls : Fin N → ℕ} (h : Indicators segs cls) :
    ∃ ps, prefixSum (segs.length * N) (cat segs) = some ps ∧ ∃ π : Equiv.Perm (Fin N), Rank π cls ∧
      ∀ i, ps (slot cls i) = BitVec.ofNat w ((π i).val + 1) := by
  obtain ⟨ps, h1, h2⟩ := prefixSum_spec (segs.length * N) (cat segs)
  obtain ⟨π, h3, h4⟩ := rank_exists (slot cls) (slot_inj cls)
  refine ⟨ps, h1, π, fun i j => (h4 i j).trans (slot_lt_iff cls i j), fun i => ?_⟩
  have hlt : slot cls i < segs.length * N := by
    have := Nat.mul_le_mul_right N (Nat.succ_le_of_lt (h.1 i))
    rw [Nat.succ_mul] at this
    unfold slot
    have := i.isLt
    omega
  rw [h2 _ hlt, scanTo_count (cls := cls) (fun k hk => cat_bit h hk) _ hlt, h3]
  congr 1
  have : (Finset.univ.filter fun j => slot cls j ≤ slot cls i) =
      insert i (Finset.univ.filter fun j => slot cls j < slot cls i) := by
    ext j
    simp only [Finset.mem_filter, Finset.mem_univ, true_and, Finset.mem_insert]
    constructor
    · intro h
      rcases Nat.eq_or_lt_of_le h with e | e
      · exact .inl (slot_inj cls e)
      · exact .inr e
    · rintro (rfl | h)
      · exact le_refl _
      · exact h.le
  rw [this, Finset.card_insert_of_notMem (by simp)]

/-- a vector of zeros and ones -/
def IsBits (x : Fin N → BitVec w) : Prop := ∀ i, x i = 0 ∨ x i = 1

/-- the bit as a number -/
def bitNat (b : BitVec w) : ℕ := if b = 0 then 0 else 1

theorem ofNat_succ_sub (n : ℕ) : BitVec.ofNat w (n + 1) - 1 = BitVec.ofNat w n := by
  rw [BitVec.ofNat_add]
  exact add_sub_cancel_right _ _

theorem stands_ofNat {π : Equiv.Perm (Fin N)} (hN : N ≤ 2 ^ w) : Stands (idx fun i => BitVec.ofNat w (π i).val) π := by
  intro i
  simp only [idx, BitVec.toNat_ofNat]
  exact Nat.mod_eq_of_lt (lt_of_lt_of_le (π i).isLt hN)

/-- **C33**: `_gen_inv_perm_by_bv` for one bit vector gives the stable sorting permutation of the bits. -/
theorem c33_byBv1 {x : Fin N → BitVec w} (hx : IsBits x) (hw : 0 < w) :
    ∃ π : Equiv.Perm (Fin N), byBv1 x = some (fun i => BitVec.ofNat w (π i).val) ∧ Rank π fun i => bitNat (x i) := by
  have h10 : (1 : BitVec w) ≠ 0 := by
    intro h
    have := congrArg BitVec.toNat h
    simp at this
    omega
  have hI : Indicators [fun i => 1 - x i, x] fun i => bitNat (x i) := by
    refine ⟨fun i => by simp only [bitNat]; split <;> simp, fun c hc i => ?_⟩
    have hc' : c < 2 := hc
    rcases (show c = 0 ∨ c = 1 by omega) with rfl | rfl <;> rcases hx i with e | e <;> simp [bitNat, e, hw.ne']
  obtain ⟨ps, h1, π, h2, h3⟩ := bv_core hI
  refine ⟨π, ?_, h2⟩
  unfold byBv1
  simp only [List.length_cons, List.length_nil, Nat.zero_add, Nat.reduceAdd] at h1
  simp only [Option.bind_eq_bind, h1, Option.bind_some, Option.pure_def, Option.some.injEq]
  funext i
  have c0 := cat_at hI (c := 0) (by simp) i
  have c1 := cat_at hI (c := 1) (by simp) i
  simp only [Nat.zero_mul, Nat.zero_add, Nat.one_mul] at c0 c1
  have h3 := h3 i
  unfold slot at h3
  rw [c0, c1]
  rcases hx i with e | e
  · simp only [bitNat, e, if_true, Nat.zero_mul, Nat.zero_add] at h3 ⊢
    simpa [h3] using ofNat_succ_sub (w := w) _
  · simp only [bitNat, e, h10, if_false, Nat.one_mul] at h3 ⊢
    simpa [h3] using ofNat_succ_sub (w := w) _

/-- **C33**: `_gen_inv_perm_by_bv` for two bit vectors gives the stable sorting permutation of the two-bit numbers. -/
theorem c33_byBv2 {x y : Fin N → BitVec w} (hx : IsBits x) (hy : IsBits y) (hw : 0 < w) :
    ∃ π : Equiv.Perm (Fin N), byBv2 x y = some (fun i => BitVec.ofNat w (π i).val) ∧
      Rank π fun i => bitNat (x i) + 2 * bitNat (y i) := by
  have h10 : (1 : BitVec w) ≠ 0 := by
    intro h
    have := congrArg BitVec.toNat h
    simp at this
    omega
  have hI : Indicators [fun i => (1 - x i) * (1 - y i), fun i => (1 - y i) - (1 - x i) * (1 - y i),
      fun i => (1 - x i) - (1 - x i) * (1 - y i), fun i => y i - ((1 - x i) - (1 - x i) * (1 - y i))]
      fun i => bitNat (x i) + 2 * bitNat (y i) := by
    refine ⟨fun i => ?_, fun c hc i => ?_⟩
    · simp only [bitNat]; split <;> split <;> simp
    · have hc' : c < 4 := hc
      rcases (show c = 0 ∨ c = 1 ∨ c = 2 ∨ c = 3 by omega) with rfl | rfl | rfl | rfl <;> rcases hx i with e | e <;>
        rcases hy i with e' | e' <;> simp [bitNat, e, e', hw.ne']
  obtain ⟨ps, h1, π, h2, h3⟩ := bv_core hI
  refine ⟨π, ?_, h2⟩
  unfold byBv2
  simp only [List.length_cons, List.length_nil, Nat.zero_add, Nat.reduceAdd] at h1
  simp only [Option.bind_eq_bind, h1, Option.bind_some, Option.pure_def, Option.some.injEq]
  funext i
  have c0 := cat_at hI (c := 0) (by simp) i
  have c1 := cat_at hI (c := 1) (by simp) i
  have c2 := cat_at hI (c := 2) (by simp) i
  have c3 := cat_at hI (c := 3) (by simp) i
  simp only [Nat.zero_mul, Nat.zero_add, Nat.one_mul] at c0 c1
  have h3 := h3 i
  unfold slot at h3
  rw [c0, c1, c2, c3]
  rcases hx i with e | e <;> rcases hy i with e' | e'
  · simp only [bitNat, e, e', if_true, Nat.zero_mul, Nat.zero_add, Nat.mul_zero] at h3 ⊢
    simpa [h3] using ofNat_succ_sub (w := w) _
  · simp only [bitNat, e, e', if_true, h10, if_false, Nat.mul_one, Nat.zero_add] at h3 ⊢
    simpa [h3] using ofNat_succ_sub (w := w) _
  · simp only [bitNat, e, e', if_true, h10, if_false, Nat.mul_zero, Nat.add_zero, Nat.one_mul] at h3 ⊢
    simpa [h3] using ofNat_succ_sub (w := w) _
  · simp only [bitNat, e, e', if_true, h10, if_false, Nat.mul_one, Nat.reduceAdd] at h3 ⊢
    simpa [h3] using ofNat_succ_sub (w := w) _

/-- the example of the source comment -/
example : ((byBv2 (w := 8) (N := 2) ![0, 1] ![1, 0]).map fun o => (List.finRange 2).map o) = some [1, 0] := by
  decide +kernel
example : ((byBv1 (w := 8) (N := 5) ![1, 0, 1, 0, 0]).map fun o => (List.finRange 5).map o) = some [3, 0, 4, 1, 2] := by
  decide +kernel
example : IsBits (w := 8) (N := 5) ![1, 0, 1, 0, 0] := by unfold IsBits; decide

/-- sorting by a less significant key first and by a more significant one after it -/
theorem Rank.comp {κ : Type} [LinearOrder κ] {τ π : Equiv.Perm (Fin N)} {K : Fin N → κ} {κ' κ'' : Type} [LinearOrder κ']
    [LT κ''] {C : Fin N → κ'} {K'' : Fin N → κ''} (hτ : Rank τ K) (hπ : Rank π fun a => C (τ.symm a))
    (hlt : ∀ i j, K'' i < K'' j ↔ C i < C j ∨ (C i = C j ∧ K i < K j))
    (heq : ∀ i j, K'' i = K'' j ↔ C i = C j ∧ K i = K j) : Rank (τ.trans π) K'' := by
  intro i j
  rw [Equiv.trans_apply, Equiv.trans_apply, hπ (τ i) (τ j), hτ i j, hlt, heq]
  simp only [Equiv.symm_apply_apply]
  tauto

section Round
variable {ord : List (Fin N)} (ho : Covers ord)
include ho

theorem optApplyInv_spec (xs : List (Fin N → BitVec w)) {perm : Fin N → BitVec w} {τ : Equiv.Perm (Fin N)}
    (hp : Stands (idx perm) τ) (ρ : Equiv.Perm (Fin N)) :
    optApplyInv ord xs perm ρ = some (xs.map fun x j => x (τ.symm j), fun i => (τ (ρ i)).val) := by
  have hs : Stands (idx fun i => perm (ρ i)) (ρ.trans τ) := fun i => hp (ρ i)
  unfold optApplyInv
  have : ∀ l : List (Fin N → BitVec w),
      l.mapM (fun x => applyInvPerm ord (fun i => x (ρ i)) (idx fun i => perm (ρ i))) =
        some (l.map fun x j => x (τ.symm j)) := by
    intro l
    induction l with
    | nil => rfl
    | cons a l ih =>
      rw [List.mapM_cons, c17_applyInvPerm ho _ hs, Option.bind_eq_bind, Option.bind_some, ih]
      simp
  simp only [this, Option.bind_eq_bind, Option.bind_some, Option.pure_def, Option.some.injEq, Prod.mk.injEq, true_and]
  funext i
  exact hp (ρ i)

omit ho in
theorem optApplyPerm_spec {π τ ρ : Equiv.Perm (Fin N)} :
    optApplyPerm (fun i => BitVec.ofNat w (π i).val) (fun i => (τ (ρ i)).val) ρ =
      some fun i => BitVec.ofNat w ((τ.trans π) i).val := by
  unfold optApplyPerm
  rw [c17_applyPerm (σ := ρ.trans τ) (pv := fun i => (τ (ρ i)).val) _ (fun i => rfl)]
  simp

theorem round1_spec {b perm : Fin N → BitVec w} (hb : IsBits b) {τ : Equiv.Perm (Fin N)} (hp : Stands (idx perm) τ)
    (ρ : Equiv.Perm (Fin N)) (hw : 0 < w) :
    ∃ π : Equiv.Perm (Fin N), round1 ord b perm ρ = some (fun i => BitVec.ofNat w ((τ.trans π) i).val) ∧
      Rank π fun a => bitNat (b (τ.symm a)) := by
  obtain ⟨π, h1, h2⟩ := c33_byBv1 (x := fun a => b (τ.symm a)) (fun i => hb _) hw
  refine ⟨π, ?_, h2⟩
  unfold round1
  rw [optApplyInv_spec ho _ hp]
  simp only [Option.bind_eq_bind, Option.bind_some, List.map_cons, List.map_nil, List.getD_cons_zero, h1]
  exact optApplyPerm_spec

theorem round2_spec {b0 b1 perm : Fin N → BitVec w} (hb0 : IsBits b0) (hb1 : IsBits b1) {τ : Equiv.Perm (Fin N)}
    (hp : Stands (idx perm) τ) (ρ : Equiv.Perm (Fin N)) (hw : 0 < w) :
    ∃ π : Equiv.Perm (Fin N), round2 ord b0 b1 perm ρ = some (fun i => BitVec.ofNat w ((τ.trans π) i).val) ∧
      Rank π fun a => bitNat (b0 (τ.symm a)) + 2 * bitNat (b1 (τ.symm a)) := by
  obtain ⟨π, h1, h2⟩ := c33_byBv2 (x := fun a => b0 (τ.symm a)) (y := fun a => b1 (τ.symm a)) (fun i => hb0 _)
    (fun i => hb1 _) hw
  refine ⟨π, ?_, h2⟩
  unfold round2
  rw [optApplyInv_spec ho _ hp]
  simp only [Option.bind_eq_bind, Option.bind_some, List.map_cons, List.map_nil, List.getD_cons_zero,
    List.getD_cons_succ, h1]
  exact optApplyPerm_spec

end Round

end Spu.Props

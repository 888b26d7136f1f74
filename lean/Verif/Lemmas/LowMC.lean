import Verif.Model.LowMC
import Verif.Spec.LowMC
import Verif.Lemmas.Shape
import Mathlib.LinearAlgebra.Matrix.Rank
import Mathlib.LinearAlgebra.Matrix.NonsingularInverse
import Mathlib.LinearAlgebra.Matrix.ToLinearEquiv
import Mathlib.Algebra.Field.ZMod
import Mathlib.Tactic.Ring
import Mathlib.Tactic.Linarith

set_option autoImplicit false

/-!
# Lemmas for C82: words as bit vectors over the field of two elements, Gaussian elimination
-/

namespace Spu.Lemmas.LowMC
open Spu.Model Spu.Model.LowMC Spu.Spec.LowMC

/-- a Boolean as a field element -/
def bz (b : Bool) : ZMod 2 := if b then 1 else 0

theorem bz_xor (a b : Bool) : bz (a ^^ b) = bz a + bz b := by cases a <;> cases b <;> decide
theorem bz_and (a b : Bool) : bz (a && b) = bz a * bz b := by cases a <;> cases b <;> decide
theorem bz_inj {a b : Bool} (h : bz a = bz b) : a = b := by revert h; cases a <;> cases b <;> decide
theorem bz_add_self (a : ZMod 2) : a + a = 0 := by revert a; decide

theorem gfBits_apply {s : ℕ} (x : BitVec s) (j : Fin s) : gfBits x j = bz (x.getLsbD j) := rfl

theorem gfBits_xor {s : ℕ} (x y : BitVec s) : gfBits (x ^^^ y) = gfBits x + gfBits y := by
  funext j
  rw [Pi.add_apply, gfBits_apply, gfBits_apply, gfBits_apply, BitVec.getLsbD_xor, bz_xor]

theorem gfBits_zero {s : ℕ} : gfBits (0 : BitVec s) = 0 := by
  funext j
  simp [gfBits]

theorem gfBits_inj {s : ℕ} {x y : BitVec s} (h : gfBits x = gfBits y) : x = y := by
  refine BitVec.eq_of_getLsbD_eq fun i hi => ?_
  have := congrFun h ⟨i, hi⟩
  rw [gfBits_apply, gfBits_apply] at this
  exact bz_inj this

/-- sum of the low `k` bits -/
theorem parityLoop_sum {s : ℕ} : ∀ (e : ℕ) (x : BitVec s),
    bz ((parityLoop (2 ^ e) x).getLsbD 0) = ∑ i ∈ Finset.range (2 ^ e), bz (x.getLsbD i) := by
  intro e
  induction e with
  | zero =>
    intro x
    rw [parityLoop, dif_neg (by norm_num)]
    simp
  | succ e ih =>
    intro x
    rw [parityLoop, dif_pos (by rw [pow_succ]; have := Nat.two_pow_pos e; omega)]
    rw [show 2 ^ (e + 1) / 2 = 2 ^ e by rw [pow_succ]; omega, ih, show 2 ^ (e + 1) = 2 ^ e + 2 ^ e by rw [pow_succ]; omega,
      Finset.sum_range_add, ← Finset.sum_add_distrib]
    refine Finset.sum_congr rfl fun i _ => ?_
    rw [BitVec.getLsbD_xor, BitVec.getLsbD_ushiftRight, bz_xor]

theorem bitParity_sum {s e : ℕ} (hs : s = 2 ^ e) (x : BitVec s) : bz (bitParity x) = ∑ j : Fin s, gfBits x j := by
  subst hs
  unfold bitParity
  rw [parityLoop_sum, Finset.sum_range]
  rfl

/-- bits set one at a time -/
theorem foldl_setBits {n : ℕ} (f : ℕ → Bool) : ∀ (k : ℕ) (_ : k ≤ n) (i : ℕ),
    ((List.range k).foldl (fun (out : BitVec n) i => out ||| ((BitVec.ofBool (f i)).setWidth n <<< i)) 0).getLsbD i =
      (decide (i < k) && f i) := by
  intro k
  induction k with
  | zero => intro _ i; simp
  | succ k ih =>
    intro hk i
    rw [List.range_succ, List.foldl_append, List.foldl_cons, List.foldl_nil, BitVec.getLsbD_or, ih (by omega),
      BitVec.getLsbD_shiftLeft, BitVec.getLsbD_setWidth, BitVec.getLsbD_ofBool]
    by_cases h1 : i < k
    · simp [h1, show i < k + 1 by omega]
    · by_cases h2 : i = k
      · subst h2
        simp [show 0 < n by omega, show i < n by omega]
      · have h3 : ¬ i < k + 1 := by omega
        have h4 : i - k ≠ 0 := by omega
        simp [h1, h3, h4]

theorem gfBits_surj {s : ℕ} (v : Fin s → ZMod 2) : ∃ x : BitVec s, gfBits x = v := by
  refine ⟨(List.range s).foldl (fun (out : BitVec s) i => out ||| ((BitVec.ofBool (decide (gfBit v i = 1))).setWidth s <<< i)) 0, ?_⟩
  funext j
  rw [gfBits_apply, foldl_setBits (fun i => decide (gfBit v i = 1)) s (le_refl s) j]
  simp only [gfBit, j.isLt, dif_pos, Fin.eta, decide_true, Bool.true_and]
  generalize v j = a
  revert a; decide

theorem dotGf2_bits {s e n : ℕ} (hs : s = 2 ^ e) (m : Rows s) (y : BitVec s) :
    gfBits (dotGf2 n m y) = (matOf n m).mulVec (gfBits y) := by
  funext i
  unfold dotGf2
  rw [gfBits_apply, foldl_setBits (fun i => bitParity (y &&& m i)) n (le_refl n) i]
  simp only [i.isLt, decide_true, Bool.true_and]
  rw [bitParity_sum hs, Matrix.mulVec, dotProduct]
  refine Finset.sum_congr rfl fun j _ => ?_
  rw [gfBits_apply, BitVec.getLsbD_and, bz_and, mul_comm]
  rfl

/-! ### Gaussian elimination -/

section
variable {s : ℕ}

/-- rows `row` and later have only zeros in the columns `done`; the rows before have a pivot below which there are only
zeros; the span of the rows is that of `m0` -/
structure Ech (n : ℕ) (m0 : Rows s) (done : List ℕ) (m : Rows s) (row : ℕ) (piv : ℕ → ℕ) : Prop where
  span : Submodule.span (ZMod 2) (Set.range (matOf n m)) = Submodule.span (ZMod 2) (Set.range (matOf n m0))
  le : row ≤ n
  len : row ≤ done.length
  lt : ∀ i < row, piv i < s
  one : ∀ i < row, (m i).getLsbD (piv i) = true
  below : ∀ i < row, ∀ j, i < j → j < n → (m j).getLsbD (piv i) = false
  zero : ∀ j, row ≤ j → j < n → ∀ p ∈ done, (m j).getLsbD p = false

theorem findRow_spec (m : Rows s) (p n : ℕ) : ∀ r, r ≤ findRow m p n r ∧
    (∀ i, r ≤ i → i < findRow m p n r → i < n → (m i).getLsbD p = false) ∧
    (findRow m p n r < n → (m (findRow m p n r)).getLsbD p = true) := by
  intro r
  induction hk : n - r generalizing r with
  | zero =>
    rw [findRow, dif_neg (by omega)]
    refine ⟨le_refl _, fun i h1 h2 => by omega, fun h => by omega⟩
  | succ k ih =>
    rw [findRow]
    by_cases h : r < n ∧ ¬ (m r).getLsbD p
    · rw [dif_pos h]
      obtain ⟨a, b, c⟩ := ih (r + 1) (by omega)
      refine ⟨by omega, fun i h1 h2 h3 => ?_, c⟩
      by_cases hi : i = r
      · subst hi; simpa using h.2
      · exact b i (by omega) h2 h3
    · rw [dif_neg h]
      refine ⟨le_refl _, fun i h1 h2 => by omega, fun hr => ?_⟩
      by_contra hc
      exact h ⟨hr, by simpa using hc⟩

theorem swapRows_apply (m : Rows s) (a b i : ℕ) :
    swapRows m a b i = if i = b then m a else if i = a then m b else m i := by
  unfold swapRows
  simp only [Function.update_apply]

theorem swapRows_mem (m : Rows s) {a b n : ℕ} (ha : a < n) (hb : b < n) :
    Set.range (matOf n (swapRows m a b)) = Set.range (matOf n m) := by
  have key : ∀ m' : Rows s, Set.range (matOf n (swapRows m' a b)) ⊆ Set.range (matOf n m') := by
    rintro m' _ ⟨i, rfl⟩
    unfold matOf
    simp only [swapRows_apply]
    split
    · exact ⟨⟨a, ha⟩, rfl⟩
    · split
      · exact ⟨⟨b, hb⟩, rfl⟩
      · exact ⟨i, rfl⟩
  refine Set.Subset.antisymm (key m) ?_
  have := key (swapRows m a b)
  have h2 : swapRows (swapRows m a b) a b = m := by
    funext i
    simp only [swapRows_apply]
    by_cases h1 : i = b
    · by_cases h3 : a = b <;> simp [h1, h3]
    · by_cases h3 : i = a
      · by_cases h4 : a = b <;> simp_all
      · simp [h1, h3]
  rwa [h2] at this

theorem elim_span (m t : Rows s) {p row n : ℕ} (hr : row < n) :
    Submodule.span (ZMod 2) (Set.range (matOf n (elim m t p row n))) = Submodule.span (ZMod 2) (Set.range (matOf n t)) := by
  have hrow : elim m t p row n row = t row := by unfold elim; rw [if_neg (by omega)]
  have hmem : ∀ (u : Rows s) (i : Fin n), gfBits (u i) ∈ Submodule.span (ZMod 2) (Set.range (matOf n u)) :=
    fun u i => Submodule.subset_span ⟨i, rfl⟩
  apply le_antisymm
  · rw [Submodule.span_le]
    rintro _ ⟨i, rfl⟩
    show gfBits (elim m t p row n i) ∈ _
    unfold elim
    split
    · rw [gfBits_xor]
      exact Submodule.add_mem _ (hmem t i) (hmem t ⟨row, hr⟩)
    · exact hmem t i
  · rw [Submodule.span_le]
    rintro _ ⟨i, rfl⟩
    show gfBits (t i) ∈ _
    by_cases hc : row < (i : ℕ) ∧ (i : ℕ) < n ∧ (m i).getLsbD p
    · have h1 := hmem (elim m t p row n) i
      have h2 := hmem (elim m t p row n) ⟨row, hr⟩
      have e1 : elim m t p row n i = t i ^^^ t row := by unfold elim; rw [if_pos hc]
      have := Submodule.add_mem _ h1 h2
      rw [e1] at this
      simp only [hrow] at this
      rw [← gfBits_xor, BitVec.xor_assoc, BitVec.xor_self, BitVec.xor_zero] at this
      exact this
    · have := hmem (elim m t p row n) i
      have e1 : elim m t p row n i = t i := by unfold elim; rw [if_neg hc]
      rwa [e1] at this

/-- a column without pivot -/
theorem Ech.skip {n : ℕ} {m0 m : Rows s} {done : List ℕ} {row : ℕ} {piv : ℕ → ℕ} (h : Ech n m0 done m row piv) {p : ℕ}
    (hz : ∀ j, row ≤ j → j < n → (m j).getLsbD p = false) : Ech n m0 (p :: done) m row piv where
  span := h.span
  le := h.le
  len := by have := h.len; simp only [List.length_cons]; omega
  lt := h.lt
  one := h.one
  below := h.below
  zero := fun j h1 h2 q hq => by
    rcases List.mem_cons.1 hq with rfl | hq
    · exact hz j h1 h2
    · exact h.zero j h1 h2 q hq

/-- exchanging two of the remaining rows -/
theorem Ech.swap {n : ℕ} {m0 m : Rows s} {done : List ℕ} {row : ℕ} {piv : ℕ → ℕ} (h : Ech n m0 done m row piv) {r : ℕ}
    (h1 : row ≤ r) (h2 : r < n) : Ech n m0 done (swapRows m row r) row piv where
  span := by rw [swapRows_mem m (by omega) h2]; exact h.span
  le := h.le
  len := h.len
  lt := h.lt
  one := fun i hi => by
    rw [swapRows_apply, if_neg (by omega), if_neg (by omega)]
    exact h.one i hi
  below := fun i hi j hj hjn => by
    rw [swapRows_apply]
    split
    · exact h.below i hi row hi (by omega)
    · split
      · exact h.below i hi r (by omega) h2
      · exact h.below i hi j hj hjn
  zero := fun j hj hjn p hp => by
    rw [swapRows_apply]
    split
    · exact h.zero row (le_refl _) (by omega) p hp
    · split
      · exact h.zero r h1 h2 p hp
      · exact h.zero j hj hjn p hp

/-- eliminating below a pivot -/
theorem Ech.pivot {n : ℕ} {m0 m : Rows s} {done : List ℕ} {row : ℕ} {piv : ℕ → ℕ} (h : Ech n m0 done m row piv) {p : ℕ}
    (hr : row < n) (hp : (m row).getLsbD p = true) :
    Ech n m0 (p :: done) (elim m m p row n) (row + 1) (Function.update piv row p) where
  span := by rw [elim_span m m hr]; exact h.span
  le := hr
  len := by have := h.len; simp only [List.length_cons]; omega
  lt := fun i hi => by
    rw [Function.update_apply]
    split
    · by_contra hc
      rw [BitVec.getLsbD_of_ge _ _ (by omega)] at hp
      exact absurd hp (by simp)
    · exact h.lt i (by omega)
  one := fun i hi => by
    unfold elim
    rw [if_neg (by omega), Function.update_apply]
    split
    · rename_i e; subst e; exact hp
    · exact h.one i (by omega)
  below := fun i hi j hj hjn => by
    rw [Function.update_apply]
    unfold elim
    by_cases e : i = row
    · rw [if_pos e]
      subst e
      split
      · rename_i e; rw [BitVec.getLsbD_xor, hp, e.2.2]; rfl
      · rename_i e
        by_contra hc
        exact e ⟨hj, hjn, by simpa using hc⟩
    · rw [if_neg e]
      split
      · rw [BitVec.getLsbD_xor, h.below i (by omega) j hj hjn, h.below i (by omega) row (by omega) hr]; rfl
      · exact h.below i (by omega) j hj hjn
  zero := fun j hj hjn q hq => by
    unfold elim
    rcases List.mem_cons.1 hq with rfl | hq
    · split
      · rename_i e; rw [BitVec.getLsbD_xor, hp, e.2.2]; rfl
      · rename_i e
        by_contra hc
        exact e ⟨by omega, hjn, by simpa using hc⟩
    · split
      · rw [BitVec.getLsbD_xor, h.zero j (by omega) hjn q hq, h.zero row (le_refl _) hr q hq]; rfl
      · exact h.zero j (by omega) hjn q hq

/-- rows with pivots are independent -/
theorem Ech.indep {n : ℕ} {m0 m : Rows s} {done : List ℕ} {row : ℕ} {piv : ℕ → ℕ} (h : Ech n m0 done m row piv) :
    LinearIndependent (ZMod 2) (fun i : Fin row => gfBits (m i)) := by
  rw [Fintype.linearIndependent_iff]
  intro g hg
  have key : ∀ k (hk : k < row), g ⟨k, hk⟩ = 0 := by
    intro k
    induction k using Nat.strong_induction_on with
    | _ k ih =>
      intro hk
      have := congrFun hg ⟨piv k, h.lt k hk⟩
      rw [Finset.sum_apply] at this
      rw [Finset.sum_eq_single (⟨k, hk⟩ : Fin row)] at this
      · simpa [gfBits_apply, h.one k hk, bz] using this
      · intro b _ hb
        rcases lt_trichotomy (b : ℕ) k with hlt | heq | hgt
        · rw [show g b = 0 from ih b hlt b.isLt]; simp
        · exact absurd (Fin.ext heq) hb
        · simp [gfBits_apply, h.below k hk b hgt (by have := h.le; omega), bz]
      · intro hc; exact absurd (Finset.mem_univ _) hc
  exact fun i => key i i.isLt

theorem rank_eq_finrank {n : ℕ} (m : Rows s) :
    (matOf n m).rank = Module.finrank (ZMod 2) (Submodule.span (ZMod 2) (Set.range (matOf n m))) := by
  have h := Matrix.rank_eq_finrank_span_row (R := ZMod 2) (matOf n m)
  exact h

theorem Ech.le_rank {n : ℕ} {m0 m : Rows s} {done : List ℕ} {row : ℕ} {piv : ℕ → ℕ} (h : Ech n m0 done m row piv) :
    row ≤ (matOf n m0).rank := by
  rw [rank_eq_finrank, ← h.span]
  have h1 := finrank_span_eq_card h.indep
  rw [Fintype.card_fin] at h1
  calc row = _ := h1.symm
    _ ≤ _ := by
      apply Submodule.finrank_mono
      rw [Submodule.span_le]
      rintro _ ⟨i, rfl⟩
      exact Submodule.subset_span ⟨⟨i, by have := h.le; omega⟩, rfl⟩

/-- all columns visited: the number of pivots is the rank -/
theorem Ech.rank {n : ℕ} {m0 m : Rows s} {done : List ℕ} {row : ℕ} {piv : ℕ → ℕ} (h : Ech n m0 done m row piv)
    (hd : ∀ p < s, p ∈ done) : row = (matOf n m0).rank := by
  refine le_antisymm h.le_rank ?_
  rw [rank_eq_finrank, ← h.span]
  have h1 := finrank_span_eq_card h.indep
  rw [Fintype.card_fin] at h1
  calc _ ≤ _ := by
        apply Submodule.finrank_mono (t := Submodule.span (ZMod 2) (Set.range fun i : Fin row => gfBits (m i)))
        rw [Submodule.span_le]
        rintro _ ⟨i, rfl⟩
        by_cases hi : (i : ℕ) < row
        · exact Submodule.subset_span ⟨⟨i, hi⟩, rfl⟩
        · have : matOf n m i = 0 := by
            funext j
            show gfBits (m i) j = 0
            rw [gfBits_apply, h.zero i (by omega) i.isLt j (hd j j.isLt)]; rfl
          rw [this]; exact Submodule.zero_mem _
    _ = row := h1

theorem Ech.init (n : ℕ) (m : Rows s) : Ech n m [] m 0 id where
  span := rfl
  le := Nat.zero_le _
  len := Nat.zero_le _
  lt := fun i hi => absurd hi (Nat.not_lt_zero _)
  one := fun i hi => absurd hi (Nat.not_lt_zero _)
  below := fun i hi => absurd hi (Nat.not_lt_zero _)
  zero := fun j _ _ p hp => absurd hp (by simp)

theorem rank_le_min {n : ℕ} (m : Rows s) : (matOf n m).rank ≤ min n s :=
  le_min ((Matrix.rank_le_height _)) ((Matrix.rank_le_width _))

theorem rankLoop_ok {n : ℕ} (m0 : Rows s) : ∀ (ps done : List ℕ) (m : Rows s) (row : ℕ) (piv : ℕ → ℕ),
    Ech n m0 done m row piv → row < min n s → (∀ p < s, p ∈ done ∨ p ∈ ps) →
    rankLoop n (min n s) ps m row = some (matOf n m0).rank := by
  intro ps
  induction ps with
  | nil =>
    intro done m row piv h hlt hd
    rw [rankLoop, h.rank (fun p hp => by simpa using hd p hp)]
  | cons p ps ih =>
    intro done m row piv h hlt hd
    have hd' : ∀ q < s, q ∈ p :: done ∨ q ∈ ps := fun q hq => by
      rcases hd q hq with h1 | h1
      · exact Or.inl (List.mem_cons_of_mem _ h1)
      · rcases List.mem_cons.1 h1 with rfl | h1
        · exact Or.inl (by simp)
        · exact Or.inr h1
    have hrn : row < n := by omega
    have next : ∀ m' : Rows s, Ech n m0 done m' row piv → (m' row).getLsbD p = true →
        (if row + 1 = min n s then some (row + 1) else rankLoop n (min n s) ps (elim m' m' p row n) (row + 1)) =
          some (matOf n m0).rank := by
      intro m' h' hp
      have hE := h'.pivot hrn hp
      split
      · rename_i e
        have h1 := hE.le_rank
        have h2 := rank_le_min (n := n) m0
        congr 1; omega
      · exact ih _ _ _ _ hE (by omega) hd'
    rw [rankLoop, if_pos hrn]
    by_cases hb : (m row).getLsbD p = true
    · simp only [hb, not_true_eq_false, if_false]
      exact next m h hb
    · have hb' : (m row).getLsbD p = false := by simpa using hb
      simp only [hb, if_true, not_false_eq_true]
      obtain ⟨f1, f2, f3⟩ := findRow_spec m p n row
      by_cases hr : n ≤ findRow m p n row
      · simp only [hr, if_true]
        exact ih _ _ _ _ (h.skip fun j h1 h2 => f2 j h1 (by omega) h2) hlt hd'
      · simp only [hr, if_false]
        refine next _ (h.swap f1 (by omega)) ?_
        rw [swapRows_apply]
        split
        · rename_i e
          have := f3 (by omega); rw [← e] at this; exact this
        · rw [if_pos rfl]; exact f3 (by omega)

theorem rankLoop_le {n mr : ℕ} : ∀ (ps : List ℕ) (m : Rows s) (row k : ℕ), rankLoop n mr ps m row = some k → k ≤ row + ps.length := by
  intro ps
  induction ps with
  | nil =>
    intro m row k h
    rw [rankLoop, Option.some_inj] at h
    simp [h]
  | cons p ps ih =>
    intro m row k h
    rw [rankLoop] at h
    have next : ∀ m' : Rows s, (if row + 1 = mr then some (row + 1) else rankLoop n mr ps m' (row + 1)) = some k →
        k ≤ row + (p :: ps).length := by
      intro m' h'
      rw [List.length_cons]
      split at h'
      · rw [Option.some_inj] at h'; omega
      · have := ih _ _ _ h'; omega
    split at h
    · dsimp only at h
      split at h
      · split at h
        · have := ih _ _ _ h
          rw [List.length_cons]; omega
        · exact next _ h
      · exact next _ h
    · exact absurd h (by simp)

/-- the rows of `v` express the rows of `m` by those of `m0` -/
def Tracks (m0 m v : Rows s) : Prop := ∀ i < s, Matrix.vecMul (gfBits (v i)) (matOf s m0) = gfBits (m i)

theorem Tracks.swap {m0 m v : Rows s} (h : Tracks m0 m v) {a b : ℕ} (ha : a < s) (hb : b < s) :
    Tracks m0 (swapRows m a b) (swapRows v a b) := by
  intro i hi
  simp only [swapRows_apply]
  split
  · exact h a ha
  · split
    · exact h b hb
    · exact h i hi

theorem Tracks.elim {m0 m v : Rows s} (h : Tracks m0 m v) {p row : ℕ} (hr : row < s) :
    Tracks m0 (elim m m p row s) (elim m v p row s) := by
  intro i hi
  unfold LowMC.elim
  split
  · rw [gfBits_xor, gfBits_xor, Matrix.add_vecMul, h i hi, h row hr]
  · exact h i hi

theorem Tracks.clear {m0 m v : Rows s} (h : Tracks m0 m v) {c : ℕ} (hc : c < s) :
    Tracks m0 (clearAbove m m c) (clearAbove m v c) := by
  intro i hi
  unfold clearAbove
  split
  · rw [gfBits_xor, gfBits_xor, Matrix.add_vecMul, h i hi, h c hc]
  · exact h i hi

theorem Tracks.init (m : Rows s) : Tracks m m (fun idx => 1#s <<< idx) := by
  intro i hi
  have : gfBits (1#s <<< i) = Pi.single (⟨i, hi⟩ : Fin s) 1 := by
    funext j
    rw [gfBits_apply, Pi.single_apply, BitVec.getLsbD_shiftLeft, BitVec.getLsbD_one]
    by_cases hj : (j : ℕ) = i
    · have : j = ⟨i, hi⟩ := Fin.ext hj
      simp [this, hi, bz]
      omega
    · have h2 : j ≠ ⟨i, hi⟩ := fun e => hj (by rw [e])
      have h3 : ¬ ((j : ℕ) - i = 0 ∧ ¬ (j : ℕ) < i) := by omega
      rw [if_neg h2]
      by_cases h4 : (j : ℕ) < i
      · simp [h4, bz]
      · have : (j : ℕ) - i ≠ 0 := by omega
        simp [this, bz]
  rw [this, Matrix.single_one_vecMul]
  rfl

theorem upperLoop_ok {m0 : Rows s} (hrank : (matOf s m0).rank = s) : ∀ (k row : ℕ) (done : List ℕ) (m v : Rows s) (piv : ℕ → ℕ),
    row + k = s → Ech s m0 done m row piv → (∀ i < row, piv i = i) → (∀ q < row, q ∈ done) → Tracks m0 m v →
    ∃ m' v' done' piv', upperLoop s (List.range' row k) m v row = some (m', v') ∧ Ech s m0 done' m' s piv' ∧
      (∀ i < s, piv' i = i) ∧ Tracks m0 m' v' := by
  intro k
  induction k with
  | zero =>
    intro row done m v piv hk h hp _ hT
    have : row = s := by omega
    subst this
    exact ⟨m, v, done, piv, rfl, h, hp, hT⟩
  | succ k ih =>
    intro row done m v piv hk h hp hd hT
    have hr : row < s := by omega
    have next : ∀ m' v' : Rows s, Ech s m0 done m' row piv → Tracks m0 m' v' → (m' row).getLsbD row = true →
        ∃ m2 v2 done' piv', upperLoop s (List.range' (row + 1) k) (elim m' m' row row s) (elim m' v' row row s) (row + 1) =
          some (m2, v2) ∧ Ech s m0 done' m2 s piv' ∧ (∀ i < s, piv' i = i) ∧ Tracks m0 m2 v2 := by
      intro m' v' h' hT' hb
      refine ih (row + 1) (row :: done) _ _ (Function.update piv row row) (by omega) (h'.pivot hr hb) (fun i hi => ?_)
        (fun q hq => ?_) (hT'.elim hr)
      · rw [Function.update_apply]
        split
        · rename_i e; exact e.symm
        · exact hp i (by omega)
      · by_cases e : q = row
        · simp [e]
        · exact List.mem_cons_of_mem _ (hd q (by omega))
    rw [List.range'_succ, upperLoop, if_pos hr]
    by_cases hb : (m row).getLsbD row = true
    · simp only [hb, not_true_eq_false, if_false]
      exact next m v h hT hb
    · have hb' : (m row).getLsbD row = false := by simpa using hb
      simp only [hb, if_true, not_false_eq_true]
      obtain ⟨f1, f2, f3⟩ := findRow_spec m row s (row + 1)
      by_cases hf : s ≤ findRow m row s (row + 1)
      · exfalso
        have hE := h.skip (p := row) (fun j h1 h2 => by
          by_cases e : j = row
          · rw [e]; exact hb'
          · exact f2 j (by omega) (by omega) h2)
        have h1 := rankLoop_ok m0 (List.range' (row + 1) k) _ _ _ _ hE (by omega) (fun q hq => by
          by_cases e : q ≤ row
          · left
            rcases Nat.lt_or_ge q row with h | h
            · exact List.mem_cons_of_mem _ (hd q h)
            · simp [show q = row by omega]
          · right
            rw [List.mem_range'_1]; omega)
        have h2 := rankLoop_le _ _ _ _ h1
        rw [List.length_range', hrank] at h2
        omega
      · simp only [hf, if_false]
        refine next _ _ (h.swap (by omega) (by omega)) (hT.swap hr (by omega)) ?_
        rw [swapRows_apply, if_neg (by omega), if_pos rfl]
        exact f3 (by omega)

theorem lowerLoop_ok {m0 : Rows s} : ∀ (c : ℕ) (m v : Rows s), c ≤ s → (∀ i < s, (m i).getLsbD i = true) →
    (∀ i j, i < j → j < s → (m j).getLsbD i = false) → (∀ q, c ≤ q → q < s → ∀ r < q, (m r).getLsbD q = false) →
    Tracks m0 m v → matOf s (lowerLoop c m v).2 * matOf s m0 = 1 := by
  intro c
  induction c with
  | zero =>
    intro m v _ h1 h2 h3 hT
    ext i j
    have := congrFun (hT i i.isLt) j
    show Matrix.vecMul (gfBits (v i)) (matOf s m0) j = _
    rw [this, gfBits_apply, Matrix.one_apply]
    rcases lt_trichotomy (i : ℕ) (j : ℕ) with h | h | h
    · rw [h3 j (Nat.zero_le _) j.isLt i h, if_neg (fun e => by rw [e] at h; omega)]; rfl
    · have e : i = j := Fin.ext h
      subst e
      rw [h1 i i.isLt, if_pos rfl]; rfl
    · rw [h2 j i h i.isLt, if_neg (fun e => by rw [e] at h; omega)]; rfl
  | succ c ih =>
    intro m v hc h1 h2 h3 hT
    rw [lowerLoop]
    have hrow : ∀ j, j ≠ c → j < s → (m c).getLsbD j = false := by
      intro j hj hjs
      rcases Nat.lt_or_ge j c with h | h
      · exact h2 j c h (by omega)
      · exact h3 j (by omega) hjs c (by omega)
    have hval : ∀ r j, r < s → j < s → (clearAbove m m c r).getLsbD j =
        if j = c ∧ r < c then false else (m r).getLsbD j := by
      intro r j hr hj
      unfold clearAbove
      by_cases e : j = c
      · subst e
        by_cases hrc : r < j
        · rw [if_pos (⟨rfl, hrc⟩ : j = j ∧ r < j)]
          split
          · rename_i e; rw [BitVec.getLsbD_xor, e.2, h1 j hj]; rfl
          · rename_i e
            by_contra hcon
            exact e ⟨hrc, by simpa using hcon⟩
        · rw [if_neg (fun h => hrc h.1), if_neg (fun h => hrc h.2)]
      · rw [if_neg (fun h => e h.1 : ¬ (j = c ∧ r < c))]
        split
        · rw [BitVec.getLsbD_xor, hrow j e hj, Bool.xor_false]
        · rfl
    refine ih _ _ (by omega) (fun i hi => ?_) (fun i j hij hj => ?_) (fun q hq hqs r hr => ?_) (hT.clear (by omega))
    · rw [hval i i hi hi, if_neg (by omega)]; exact h1 i hi
    · rw [hval j i hj (by omega)]
      split
      · rfl
      · exact h2 i j hij hj
    · rw [hval r q (by omega) hqs]
      split
      · rfl
      · rename_i e
        exact h3 q (by omega) hqs r hr

theorem invertMatrix_ok {m : Rows s} (h : (matOf s m).rank = s) :
    ∃ v, invertMatrix m = some v ∧ matOf s v * matOf s m = 1 := by
  obtain ⟨m', v', done', piv', h1, h2, h3, h4⟩ := upperLoop_ok h s 0 [] m (fun idx => 1#s <<< idx) id (by omega)
    (Ech.init s m) (fun i hi => rfl) (fun q hq => absurd hq (Nat.not_lt_zero _)) (Tracks.init m)
  refine ⟨(lowerLoop s m' v').2, ?_, lowerLoop_ok s m' v' (le_refl _) (fun i hi => ?_) (fun i j hij hj => ?_)
    (fun q h1 h2 => by omega) h4⟩
  · unfold invertMatrix
    dsimp only
    rw [List.range_eq_range', h1]; rfl
  · have := h2.one i hi
    rwa [h3 i hi] at this
  · have := h2.below i (by omega) j hij hj
    rwa [h3 i (by omega)] at this

end
end Spu.Lemmas.LowMC

import Verif.Model.Perm
import Mathlib.Data.List.Sort
import Mathlib.Data.List.NodupEquivFin
import Mathlib.Data.Fintype.EquivFin
import Mathlib.Logic.Equiv.Fin.Basic
import Mathlib.Order.WellFounded
import Mathlib.Tactic.Ring

set_option autoImplicit false

/-!
# C17: permutation helpers and sorting permutations
-/

namespace Spu.Props
open Spu.Model.Perm

variable {α : Type} {N : ℕ}

/-- The index vector `pv` stands for the permutation `σ`. -/
def Stands (pv : Fin N → ℕ) (σ : Equiv.Perm (Fin N)) : Prop := ∀ i, pv i = (σ i).val

/-- `ord` runs through all indices. -/
def Covers (ord : List (Fin N)) : Prop := ord.Perm (List.finRange N)

theorem foldlM_write (x : Fin N → α) {pv : Fin N → ℕ} {σ : Equiv.Perm (Fin N)} (h : Stands pv σ) (ord : List (Fin N))
    (y : Fin N → Option α) :
    ord.foldlM (writeAt x pv) y = some fun j => if σ.symm j ∈ ord then some (x (σ.symm j)) else y j := by
  induction ord generalizing y with
  | nil => simp
  | cons i ord ih =>
    have hlt : pv i < N := by rw [h i]; exact (σ i).isLt
    have hi : (⟨pv i, hlt⟩ : Fin N) = σ i := Fin.ext (h i)
    simp only [List.foldlM_cons, writeAt, hlt, dite_true, hi, Option.bind_eq_bind, Option.bind_some, ih]
    congr 1
    funext j
    by_cases hj : σ.symm j ∈ ord
    · rw [if_pos hj, if_pos (List.mem_cons_of_mem _ hj)]
    · by_cases hji : j = σ i
      · subst hji; simp
      · have : σ.symm j ≠ i := fun e => hji (by rw [← e, Equiv.apply_symm_apply])
        simp [hj, hji, this]

/-- Applying the inverse of a permutation: the element at `i` goes to position `σ i`, in whatever order the iterations run. -/
theorem c17_applyInvPerm {ord : List (Fin N)} (ho : Covers ord) (x : Fin N → α) {pv : Fin N → ℕ}
    {σ : Equiv.Perm (Fin N)} (h : Stands pv σ) : applyInvPerm ord x pv = some fun j => x (σ.symm j) := by
  unfold applyInvPerm
  rw [foldlM_write x h]
  have hm : ∀ j, σ.symm j ∈ ord := fun j => ho.symm.subset (List.mem_finRange _)
  simp [allWritten, hm]

/-- Applying a permutation: position `i` receives the element at `σ i`. -/
theorem c17_applyPerm (x : Fin N → α) {pv : Fin N → ℕ} {σ : Equiv.Perm (Fin N)} (h : Stands pv σ) :
    applyPerm x pv = some fun i => x (σ i) := by
  unfold applyPerm
  rw [dif_pos (fun i => by rw [h i]; exact (σ i).isLt)]
  congr 1
  funext i
  congr 1
  exact Fin.ext (h i)

theorem foldlM_write_some {x : Fin N → α} {pv : Fin N → ℕ} {ord : List (Fin N)} {y z : Fin N → Option α}
    (h : ord.foldlM (writeAt x pv) y = some z) :
    (∀ i ∈ ord, pv i < N) ∧ ∀ j, (z j).isSome → (y j).isSome ∨ ∃ i ∈ ord, pv i = j.val := by
  induction ord generalizing y with
  | nil => simp only [List.foldlM_nil, Option.pure_def, Option.some.injEq] at h; subst h; simp
  | cons i ord ih =>
    simp only [List.foldlM_cons, Option.bind_eq_bind, Option.bind_eq_some_iff] at h
    obtain ⟨y', h1, h2⟩ := h
    unfold writeAt at h1
    split at h1
    · rename_i hlt
      simp only [Option.some.injEq] at h1
      obtain ⟨a, b⟩ := ih h2
      refine ⟨fun k hk => ?_, fun j hj => ?_⟩
      · rcases List.mem_cons.1 hk with rfl | hk
        · exact hlt
        · exact a k hk
      · rcases b j hj with hy | ⟨k, hk, e⟩
        · subst h1
          by_cases hji : j = ⟨pv i, hlt⟩
          · exact Or.inr ⟨i, by simp, by rw [hji]⟩
          · rw [Function.update_of_ne hji] at hy; exact Or.inl hy
        · exact Or.inr ⟨k, by simp [hk], e⟩
    · cases h1

/-- Applying an inverse permutation is defined exactly for index vectors that are permutations. -/
theorem c17_defined_iff {ord : List (Fin N)} (ho : Covers ord) (x : Fin N → α) (pv : Fin N → ℕ) :
    (∃ y, applyInvPerm ord x pv = some y) ↔ ∃ σ, Stands pv σ := by
  constructor
  · rintro ⟨y, hy⟩
    unfold applyInvPerm at hy
    obtain ⟨z, h1, h2⟩ := Option.bind_eq_some_iff.1 hy
    obtain ⟨a, b⟩ := foldlM_write_some h1
    unfold allWritten at h2
    split at h2
    · rename_i hz
      have ha : ∀ i, pv i < N := fun i => a i (ho.symm.subset (List.mem_finRange _))
      let f : Fin N → Fin N := fun i => ⟨pv i, ha i⟩
      have hs : Function.Surjective f := by
        intro j
        rcases b j (hz j) with h | ⟨i, _, e⟩
        · simp at h
        · exact ⟨i, Fin.ext e⟩
      exact ⟨Equiv.ofBijective f (Finite.surjective_iff_bijective.1 hs), fun i => rfl⟩
    · cases h2
  · rintro ⟨σ, h⟩
    exact ⟨_, c17_applyInvPerm ho x h⟩

/-- C17: permuting and permuting back, in either order, is the identity. -/
theorem c17_round_trip {ord : List (Fin N)} (ho : Covers ord) (x : Fin N → α) {pv : Fin N → ℕ}
    {σ : Equiv.Perm (Fin N)} (h : Stands pv σ) :
    (applyPerm x pv).bind (applyInvPerm ord · pv) = some x ∧ (applyInvPerm ord x pv).bind (applyPerm · pv) = some x := by
  simp [c17_applyPerm _ h, c17_applyInvPerm ho _ h]

/-- Composition: applying the inverse of `σ` and then of `τ` is applying the inverse of `τ ∘ σ`. -/
theorem c17_compose {ord : List (Fin N)} (ho : Covers ord) (x : Fin N → α) {p q r : Fin N → ℕ} {σ τ : Equiv.Perm (Fin N)}
    (hp : Stands p σ) (hq : Stands q τ) (hr : Stands r (σ.trans τ)) :
    (applyInvPerm ord x p).bind (applyInvPerm ord · q) = applyInvPerm ord x r := by
  simp [c17_applyInvPerm ho _ hp, c17_applyInvPerm ho _ hq, c17_applyInvPerm ho _ hr]

/-- C17: the generator returns the group inverse. -/
theorem c17_genInversePerm {v : ℕ} {ord : List (Fin N)} (ho : Covers ord) {perm : Fin N → BitVec v}
    {σ : Equiv.Perm (Fin N)} (h : Stands (idx perm) σ) :
    ∃ inv, genInversePerm ord perm = some inv ∧ Stands (idx inv) σ.symm := by
  refine ⟨_, c17_applyInvPerm ho _ h, fun j => ?_⟩
  have : (σ.symm j).val < 2 ^ v := by
    have := (perm (σ.symm (σ.symm j))).isLt
    have e := h (σ.symm (σ.symm j))
    rw [Equiv.apply_symm_apply] at e
    rw [← e]; exact this
  simp only [idx, BitVec.toNat_ofNat, Nat.mod_eq_of_lt this]

/-! ## Stable sorting -/

/-- `σ` lists the indices in a stable ascending order of `lt`: an earlier position is smaller, or equal and with a
smaller index. -/
def StableOrder (lt : Fin N → Fin N → Prop) (σ : Equiv.Perm (Fin N)) : Prop :=
  ∀ i j, i < j → lt (σ i) (σ j) ∨ (¬ lt (σ j) (σ i) ∧ σ i < σ j)

theorem stableSort_spec (lt : Fin N → Fin N → Bool) (hasym : ∀ a b, lt a b → lt b a = false)
    (htrans : ∀ a b c, lt b a = false → lt c b = false → lt c a = false) :
    ∃ (hl : (stableSort N lt).length = N) (σ : Equiv.Perm (Fin N)),
      (∀ i : Fin N, (stableSort N lt)[i.val]'(by rw [hl]; exact i.isLt) = σ i) ∧ StableOrder (fun a b => lt a b) σ := by
  have hperm : (stableSort N lt).Perm (List.finRange N) := List.perm_insertionSort _ _
  have hl : (stableSort N lt).length = N := by rw [hperm.length_eq, List.length_finRange]
  have hnd : (stableSort N lt).Nodup := hperm.nodup_iff.2 (List.nodup_finRange N)
  have hmem : ∀ a, a ∈ stableSort N lt := fun a => hperm.mem_iff.2 (List.mem_finRange a)
  have : IsTrans (Fin N) fun a b => lt b a = false := ⟨htrans⟩
  have : Std.Total fun a b : Fin N => lt b a = false := ⟨fun a b => by
    by_cases h : lt a b = true
    · exact Or.inl (hasym a b h)
    · exact Or.inr (by simpa using h)⟩
  have hpw : (stableSort N lt).Pairwise fun a b => lt b a = false := List.pairwise_insertionSort _ _
  let e : Equiv.Perm (Fin N) := (finCongr hl.symm).trans (hnd.getEquivOfForallMemList _ hmem)
  have he : ∀ i : Fin N, (stableSort N lt)[i.val]'(by rw [hl]; exact i.isLt) = e i := fun i => rfl
  refine ⟨hl, e, he, fun i j hij => ?_⟩
  have hle : lt (e j) (e i) = false := by
    have := List.pairwise_iff_getElem.1 hpw i.val j.val (by rw [hl]; exact i.isLt) (by rw [hl]; exact j.isLt) hij
    rw [he, he] at this
    exact this
  by_cases h1 : lt (e i) (e j) = true
  · exact Or.inl h1
  · refine Or.inr ⟨by simp [hle], ?_⟩
    simp only [Bool.not_eq_true] at h1
    rcases lt_trichotomy (e i) (e j) with h | h | h
    · exact h
    · exact absurd (e.injective h) (ne_of_lt hij)
    · exfalso
      have hsub : [e j, e i].Sublist (List.finRange N) := by
        apply List.sublist_of_subperm_of_sortedLE
        · apply List.subperm_of_subset
          · simp [h.ne]
          · intro a _; exact List.mem_finRange a
        · apply List.Pairwise.sortedLE
          simp [h.le]
        · exact (List.sortedLT_finRange N).sortedLE
      have hsub' : [e j, e i].Sublist (stableSort N lt) :=
        List.pair_sublist_insertionSort (r := fun a b => lt b a = false) h1 hsub
      have hidx : (stableSort N lt).Pairwise fun a b => (stableSort N lt).idxOf a < (stableSort N lt).idxOf b := by
        rw [List.pairwise_iff_getElem]
        intro a b ha hb hab
        rw [hnd.idxOf_getElem, hnd.idxOf_getElem]
        exact hab
      have := hidx.sublist hsub'
      simp only [List.pairwise_cons, List.mem_singleton, forall_eq, List.not_mem_nil, false_imp_iff, implies_true,
        List.Pairwise.nil, and_true] at this
      rw [← he, ← he, hnd.idxOf_getElem, hnd.idxOf_getElem] at this
      exact absurd this (not_lt.2 (le_of_lt hij))

/-- C17: the sort permutation puts the keys in ascending signed order and keeps equal keys in their original order. -/
theorem c17_genPermBySort {w : ℕ} (x : Fin N → BitVec w) :
    ∃ (hl : (genPermBySort x).length = N) (σ : Equiv.Perm (Fin N)),
      (∀ i : Fin N, (genPermBySort x)[i.val]'(by rw [hl]; exact i.isLt) = σ i) ∧
      ∀ i j, i < j → (x (σ i)).toInt < (x (σ j)).toInt ∨ ((x (σ i)).toInt = (x (σ j)).toInt ∧ σ i < σ j) := by
  obtain ⟨hl, σ, h1, h2⟩ := stableSort_spec (N := N) (fun a b => decide ((x a).toInt < (x b).toInt))
    (by intro a b h; simp only [decide_eq_true_eq, decide_eq_false_iff_not] at *; omega)
    (by intro a b c h h'; simp only [decide_eq_false_iff_not] at *; omega)
  refine ⟨hl, σ, h1, fun i j hij => ?_⟩
  have := h2 i j hij
  simp only [decide_eq_true_eq] at this
  rcases this with h | ⟨h, h'⟩
  · exact Or.inl h
  · rcases lt_or_eq_of_le (not_lt.1 h) with h3 | h3
    · exact Or.inl h3
    · exact Or.inr ⟨h3, h'⟩

/-- C17: the local kernel that sorts a public or private key returns the inverse of a stable sorting permutation, in
either direction. -/
theorem c17_genInvPerm {w : ℕ} (x : Fin N → BitVec w) (asc : Bool) (hN : N ≤ 2 ^ w) :
    ∃ (out : Fin N → BitVec w) (σ : Equiv.Perm (Fin N)), genInvPerm x asc = some out ∧ Stands (idx out) σ.symm ∧
      StableOrder (fun a b => if asc then (x a).toInt < (x b).toInt else (x b).toInt < (x a).toInt) σ := by
  obtain ⟨hl, σ, h1, h2⟩ := stableSort_spec (N := N) (keyLess x asc)
    (by intro a b h; unfold keyLess at *; cases asc <;> simp at * <;> omega)
    (by intro a b c h h'; unfold keyLess at *; cases asc <;> simp at * <;> omega)
  unfold genInvPerm
  simp only [hl, dite_true]
  refine ⟨_, σ, c17_applyInvPerm (σ := σ) (List.Perm.refl _) _ (fun i => by rw [h1]), fun j => ?_, ?_⟩
  · simp only [idx, BitVec.toNat_ofNat]
    rw [Nat.mod_eq_of_lt (by omega)]
  · intro i j hij
    have := h2 i j hij
    unfold keyLess at this
    cases asc <;> simpa using this

theorem stable_le {lt : Fin N → Fin N → Prop} (hasym : ∀ a b, lt a b → ¬ lt b a) {σ τ : Equiv.Perm (Fin N)}
    (hσ : StableOrder lt σ) (hτ : StableOrder lt τ) (i : Fin N) : i ≤ τ.symm (σ i) := by
  let R : Fin N → Fin N → Prop := fun a b => lt a b ∨ (¬ lt b a ∧ a < b)
  have hR : ∀ a b, R a b → ¬ R b a := by
    rintro a b (h | ⟨h, h'⟩) (k | ⟨k, k'⟩)
    · exact hasym _ _ h k
    · exact k h
    · exact h k
    · exact absurd h' (not_lt.2 k'.le)
  have hm : StrictMono (fun i => τ.symm (σ i)) := by
    intro i j hij
    by_contra hc
    have hne : τ.symm (σ i) ≠ τ.symm (σ j) := fun e => (ne_of_lt hij) (σ.injective (τ.symm.injective e))
    have := hτ _ _ (lt_of_le_of_ne (not_lt.1 hc) hne.symm)
    simp only [Equiv.apply_symm_apply] at this
    exact hR _ _ (hσ i j hij) this
  exact hm.le_apply

/-- A stable sorting permutation is unique: any two stable sorts agree. -/
theorem c17_stable_unique {lt : Fin N → Fin N → Prop} (hasym : ∀ a b, lt a b → ¬ lt b a) {σ τ : Equiv.Perm (Fin N)}
    (hσ : StableOrder lt σ) (hτ : StableOrder lt τ) : σ = τ := by
  apply Equiv.ext
  intro i
  have h1 := stable_le hasym hσ hτ i
  have h2 := stable_le hasym hτ hσ (τ.symm (σ i))
  rw [Equiv.apply_symm_apply, Equiv.symm_apply_apply] at h2
  have := le_antisymm h1 h2
  rw [Equiv.eq_symm_apply] at this
  exact this.symm

/-! ## Merging keys that are already sorted together -/

/-- Number of positions up to `j` where some key differs from its predecessor. -/
def changes {w : ℕ} (keys : List (ℕ → BitVec w)) (j : ℕ) : ℕ :=
  ((List.range j).filter fun i => keys.any fun x => x (i + 1) != x i).length

theorem changes_succ {w : ℕ} (keys : List (ℕ → BitVec w)) (j : ℕ) :
    changes keys (j + 1) = changes keys j + if ∃ x ∈ keys, x (j + 1) ≠ x j then 1 else 0 := by
  unfold changes
  rw [List.range_succ, List.filter_append, List.length_append]
  congr 1
  by_cases h : ∃ x ∈ keys, x (j + 1) ≠ x j
  · simp [h]
  · rw [if_neg h]
    have : (keys.any fun x => x (j + 1) != x j) = false := by
      simp only [not_exists, not_and, not_not] at h
      simpa using h
    simp [this]

theorem changes_le {w : ℕ} (keys : List (ℕ → BitVec w)) (j : ℕ) : changes keys j ≤ j := by
  simpa [changes] using List.length_filter_le (fun i => keys.any fun x => x (i + 1) != x i) (List.range j)

theorem changes_mono {w : ℕ} (keys : List (ℕ → BitVec w)) {i j : ℕ} (h : i ≤ j) : changes keys i ≤ changes keys j := by
  induction j, h using Nat.le_induction with
  | base => rfl
  | succ j _ ih => rw [changes_succ]; omega

theorem changes_eq_iff {w : ℕ} (keys : List (ℕ → BitVec w)) {i j : ℕ} (h : i ≤ j) :
    changes keys i = changes keys j ↔ ∀ x ∈ keys, ∀ k, i ≤ k → k ≤ j → x k = x i := by
  induction j, h using Nat.le_induction with
  | base => simp only [true_iff]; intro x _ k h1 h2; rw [le_antisymm h2 h1]
  | succ j hij ih =>
    rw [changes_succ]
    have hm := changes_mono keys hij
    constructor
    · intro h
      split at h
      · omega
      · rename_i hn
        simp only [not_exists, not_and, not_not] at hn
        have h0 := ih.1 (by omega)
        intro x hx k h1 h2
        rcases Nat.lt_or_ge j k with hk | hk
        · obtain rfl : k = j + 1 := by omega
          rw [hn x hx, h0 x hx j hij le_rfl]
        · exact h0 x hx k h1 hk
    · intro h
      rw [if_neg, Nat.add_zero]
      · exact ih.2 fun x hx k h1 h2 => h x hx k h1 (by omega)
      · rintro ⟨x, hx, hne⟩
        exact hne (by rw [h x hx (j + 1) (by omega) le_rfl, h x hx j hij (by omega)])

/-- The word that stands for `c` changes: `c` or `-c`. -/
def level (w : ℕ) (asc : Bool) (c : ℕ) : BitVec w := if asc then BitVec.ofNat w c else -BitVec.ofNat w c

theorem mergeFrom_spec {w : ℕ} (keys : List (ℕ → BitVec w)) (asc : Bool) (k i : ℕ) :
    (mergeFrom keys asc k (i + 1) (level w asc (changes keys i))) =
      (List.range k).map fun m => level w asc (changes keys (i + 1 + m)) := by
  induction k generalizing i with
  | zero => rfl
  | succ k ih =>
    have hnext : (if keys.all fun x => x (i + 1) == x (i + 1 - 1) then level w asc (changes keys i)
        else if asc then level w asc (changes keys i) + 1 else level w asc (changes keys i) - 1) =
        level w asc (changes keys (i + 1)) := by
      rw [changes_succ]
      by_cases h : ∃ x ∈ keys, x (i + 1) ≠ x i
      · have : (keys.all fun x => x (i + 1) == x (i + 1 - 1)) = false := by simpa using h
        rw [this, if_pos h]
        unfold level
        cases asc
        · simp [BitVec.ofNat_add, BitVec.sub_eq_add_neg, BitVec.add_comm]
        · simp [BitVec.ofNat_add]
      · have : (keys.all fun x => x (i + 1) == x (i + 1 - 1)) = true := by simpa using h
        rw [this, if_neg h]; simp
    rw [mergeFrom, hnext, ih (i + 1), List.range_succ_eq_map]
    simp only [List.map_cons, List.map_map, Nat.add_zero, Function.comp_def, List.cons.injEq, true_and]
    apply List.map_congr_left
    intro m _
    congr 2
    omega

theorem level_toInt {w : ℕ} (asc : Bool) {c : ℕ} (h : c < 2 ^ (w - 1)) (hw : 0 < w) :
    (level w asc c).toInt = if asc then (c : ℤ) else -(c : ℤ) := by
  obtain ⟨v, rfl⟩ : ∃ v, w = v + 1 := ⟨w - 1, by omega⟩
  simp only [Nat.add_sub_cancel] at h
  have h2 : (2 : ℕ) ^ (v + 1) = 2 * 2 ^ v := by rw [pow_succ]; ring
  have h3 : (2 : ℤ) ^ (v + 1) = 2 * 2 ^ v := by rw [pow_succ]; ring
  have hz : ((2 ^ v : ℕ) : ℤ) = 2 ^ v := by push_cast; ring
  have hc : (BitVec.ofNat (v + 1) c).toInt = c := by
    rw [_root_.BitVec.toInt_ofNat']
    apply Int.bmod_eq_of_le
    · push_cast; omega
    · push_cast; omega
  cases asc
  · simp only [level, Bool.false_eq_true, if_false, BitVec.toInt_neg, hc]
    apply Int.bmod_eq_of_le
    · push_cast; omega
    · push_cast; omega
  · simp only [level, if_true, hc]

/-- C17: merging keys numbers the runs of equal rows: counting up from zero, or down when descending. -/
theorem c17_mergeKeys {w : ℕ} {keys : List (ℕ → BitVec w)} (hk : keys ≠ []) {n : ℕ} (hn : 0 < n) (asc : Bool) :
    ∃ out, mergeKeys keys n asc = some out ∧ out.length = n ∧
      (∀ j (h : j < out.length), out[j] = level w asc (changes keys j)) ∧
      (0 < w → n ≤ 2 ^ (w - 1) → ∀ i j (hi : i < out.length) (hj : j < out.length), i ≤ j →
        (if asc then out[i].toInt ≤ out[j].toInt else out[j].toInt ≤ out[i].toInt) ∧
        (out[i].toInt = out[j].toInt ↔ ∀ x ∈ keys, ∀ k, i ≤ k → k ≤ j → x k = x i)) := by
  have h0 : (0 : BitVec w) = level w asc (changes keys 0) := by cases asc <;> simp [level, changes]
  have hm : mergeKeys keys n asc = some ((List.range n).map fun m => level w asc (changes keys m)) := by
    unfold mergeKeys
    rw [if_neg (by simp [hk]; omega)]
    congr 1
    obtain ⟨k, rfl⟩ : ∃ k, n = k + 1 := ⟨n - 1, by omega⟩
    rw [List.range_succ_eq_map, List.map_cons, ← h0, List.map_map, Nat.add_sub_cancel]
    congr 1
    have := mergeFrom_spec keys asc k 0
    rw [← h0, Nat.zero_add] at this
    rw [this]
    apply List.map_congr_left
    intro m _
    simp only [Function.comp_def]
    congr 2
    omega
  refine ⟨_, hm, by simp, by simp, ?_⟩
  intro hw hle i j hi hj hij
  simp only [List.length_map, List.length_range] at hi hj
  have hci := changes_le keys i
  have hcj := changes_le keys j
  have hmono := changes_mono keys hij
  simp only [List.getElem_map, List.getElem_range]
  rw [level_toInt asc (by omega) hw, level_toInt asc (by omega) hw, ← changes_eq_iff keys hij]
  cases asc <;> simp <;> omega

/-- No element: the kernel writes outside its result. -/
theorem c17_mergeKeys_empty {w : ℕ} (keys : List (ℕ → BitVec w)) (asc : Bool) : mergeKeys keys 0 asc = none := by
  simp [mergeKeys]

/-- Rows (1,1) (1,1) (1,2) (3,2) (3,2), descending. -/
example : mergeKeys (w := 8) [fun i => if i < 3 then 1 else 3, fun i => if i < 2 then 1 else 2] 5 false =
    some [0, 0, 255, 254, 254] := by decide +kernel

/-- Five keys with ties and a negative one: both directions, and the permutation laws on the result. -/
def permKeys : Fin 5 → BitVec 8 := ![3, 255, 3, 0, 7]

example : (genPermBySort permKeys).map Fin.val = [1, 3, 0, 2, 4] := by decide +kernel
example : ((genInvPerm permKeys true).map fun o => (List.finRange 5).map (idx o)) = some [2, 0, 3, 1, 4] := by decide +kernel
example : ((genInvPerm permKeys false).map fun o => (List.finRange 5).map (idx o)) = some [1, 4, 2, 3, 0] := by decide +kernel

/-- Applying the inverse permutation sorts; `pforeach` running backwards gives the same. -/
example : ((genInvPerm permKeys true).bind fun o => (applyInvPerm (List.finRange 5).reverse permKeys (idx o)).map fun y =>
    (List.finRange 5).map fun i => (y i).toInt) = some [-1, 0, 3, 3, 7] := by decide +kernel

/-- A vector that is not a permutation leaves an element unwritten. -/
example : (applyInvPerm (List.finRange 3) (![10, 20, 30] : Fin 3 → ℕ) ![0, 2, 2]).isNone := by decide +kernel

end Spu.Props

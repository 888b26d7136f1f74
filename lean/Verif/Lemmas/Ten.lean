import Verif.Model.ReduceWin
import Verif.Spec.Ten
import Verif.Lemmas.Shape
import Verif.Props.Reduce
import Mathlib.Data.List.Nodup
import Mathlib.Data.List.Range
import Mathlib.Tactic.Linarith

set_option autoImplicit false

/-! # Lemmas about tensors as functions -/

namespace Spu.Lemmas.T
open Spu.Spec Spu.Model Spu.Lemmas Spu.Props

variable {α β : Type}

/-! ## All indices -/

theorem mem_allIdx {sh i : List ℕ} : i ∈ allIdx sh ↔ InB i sh := by
  induction sh generalizing i with
  | nil =>
    simp only [allIdx, List.mem_singleton]
    constructor
    · rintro rfl; exact .nil
    · intro h; cases h; rfl
  | cons d ds ih =>
    simp only [allIdx, List.mem_flatMap, List.mem_range, List.mem_map]
    constructor
    · rintro ⟨a, ha, js, hj, rfl⟩
      exact .cons ha (ih.1 hj)
    · intro h
      cases h with
      | cons hi his => exact ⟨_, hi, _, ih.2 his, rfl⟩

theorem length_allIdx (sh : List ℕ) : (allIdx sh).length = size sh := by
  induction sh with
  | nil => rfl
  | cons d ds ih => simp [allIdx, size, List.length_flatMap, ih]

theorem map_pos_allIdx (sh : List ℕ) : (allIdx sh).map (fun i => pos i sh) = List.range (size sh) := by
  induction sh with
  | nil => rfl
  | cons d ds ih =>
    have : ∀ n, ((List.range n).flatMap fun i => (allIdx ds).map (i :: ·)).map (fun i => pos i (d :: ds)) =
        List.range (n * size ds) := by
      intro n
      induction n with
      | zero => simp
      | succ n ihn =>
        rw [List.range_succ, List.flatMap_append, List.map_append, ihn, Nat.succ_mul, List.range_add, ← ih]
        congr 1
        simp [pos, Function.comp_def]
    exact this d

theorem nodup_allIdx (sh : List ℕ) : (allIdx sh).Nodup := by
  apply List.Nodup.of_map (fun i => pos i sh)
  rw [map_pos_allIdx]; exact List.nodup_range

theorem allIdx_eq (sh : List ℕ) : allIdx sh = (List.range (size sh)).map fun p => (unflattenIndex p sh).getD [] := by
  rw [← map_pos_allIdx, List.map_map]
  symm
  conv_rhs => rw [← List.map_id (allIdx sh)]
  apply List.map_congr_left
  intro i hi
  simp [unflatten_of_InB (mem_allIdx.1 hi)]

theorem getElem_allIdx {sh i : List ℕ} (h : InB i sh) : (allIdx sh)[pos i sh]? = some i := by
  rw [allIdx_eq, List.getElem?_map, List.getElem?_range (pos_lt_size h), Option.map_some, unflatten_of_InB h]
  rfl

theorem visit_eq_aux {sh : List ℕ} (n p : ℕ) (i : List ℕ) (hi : InB i sh) (hp : pos i sh = p) (hn : size sh ≤ p + n + 1) :
    visit sh n i = (allIdx sh).drop p := by
  have hlt := pos_lt_size hi
  have hd : (allIdx sh).drop p = i :: (allIdx sh).drop (p + 1) := by
    have hl : p < (allIdx sh).length := by rw [length_allIdx]; omega
    rw [List.drop_eq_getElem_cons hl]
    congr 1
    have := getElem_allIdx hi
    rw [hp, List.getElem?_eq_getElem hl] at this
    exact Option.some_inj.1 this
  induction n generalizing p i with
  | zero =>
    rw [hd, List.drop_eq_nil_of_le (by rw [length_allIdx]; omega)]
    rfl
  | succ n ih =>
    rw [visit]
    cases hb : bumpIndices sh i with
    | none =>
      have := (bump_spec hi).2 hb
      rw [hd, List.drop_eq_nil_of_le (by rw [length_allIdx]; omega)]
    | some j =>
      have hj := (bump_spec hi).1 j hb
      have hlt' := pos_lt_size hj.1
      simp only
      rw [hd, ih (p + 1) j hj.1 (by omega) (by omega) hlt']
      have hl : p + 1 < (allIdx sh).length := by rw [length_allIdx]; omega
      rw [List.drop_eq_getElem_cons hl]
      congr 1
      have := getElem_allIdx hj.1
      rw [hj.2, hp, List.getElem?_eq_getElem hl] at this
      exact Option.some_inj.1 this

theorem visit_eq {sh : List ℕ} (hs : 0 < size sh) : visit sh (numel sh) (List.replicate sh.length 0) = allIdx sh := by
  rw [visit_eq_aux _ 0 _ (InB_zeros hs) (pos_zeros sh) (by rw [numel_eq_size]; omega), List.drop_zero]

theorem InB_append {i j a b : List ℕ} (h : InB i a) (h' : InB j b) : InB (i ++ j) (a ++ b) := by
  induction h with
  | nil => exact h'
  | cons hi _ ih => exact .cons hi ih

theorem size_append (a b : List ℕ) : size (a ++ b) = size a * size b := by
  induction a with
  | nil => simp [size]
  | cons d ds ih => simp [size, ih, Nat.mul_assoc]

theorem pos_append {i j a b : List ℕ} (h : InB i a) : pos (i ++ j) (a ++ b) = pos i a * size b + pos j b := by
  induction h with
  | nil => simp [pos]
  | cons hi _ ih => simp only [List.cons_append, pos, size_append, ih]; ring

theorem InB_single {k d : ℕ} (h : k < d) : InB [k] [d] := .cons h .nil

theorem pos_single (k d : ℕ) : pos [k] [d] = k := by simp [pos, size]

theorem size_single (d : ℕ) : size [d] = d := by simp [size]

theorem size_pos_iff {sh : List ℕ} : 0 < size sh ↔ 0 ∉ sh := by
  induction sh with
  | nil => simp [size]
  | cons d ds ih =>
    simp only [size, List.mem_cons, not_or, ← ih]
    constructor
    · intro h; exact ⟨by rintro rfl; simp at h, Nat.pos_of_mul_pos_left h⟩
    · rintro ⟨h1, h2⟩; exact Nat.mul_pos (by omega) h2

/-! ## Reshape -/

theorem reshape_spec {t r : Ten α} {sh : List ℕ} (h : t.reshape sh = some r) :
    r.shape = sh ∧ ∀ i i', InB i sh → InB i' t.shape → pos i sh = pos i' t.shape → r.get i = t.get i' := by
  unfold Ten.reshape at h
  split at h
  · cases h
    refine ⟨rfl, fun i i' _ hi' e => ?_⟩
    simp only [e, unflatten_of_InB hi', Option.getD_some]
  · cases h

theorem reshape_isSome {t : Ten α} {sh : List ℕ} (h : size sh = size t.shape) : ∃ r, t.reshape sh = some r := by
  unfold Ten.reshape
  rw [if_pos h]; exact ⟨_, rfl⟩

theorem mapM_some {γ : Type} (l : List β) (f : β → Option γ) (g : β → γ) (h : ∀ x ∈ l, f x = some (g x)) :
    l.mapM f = some (l.map g) := by
  induction l with
  | nil => rfl
  | cons x xs ih =>
    rw [List.mapM_cons, h x (by simp), ih fun y hy => h y (by simp [hy])]
    rfl

theorem concat0_spec {l : List (Ten α)} (hl : l ≠ []) {sh : List ℕ} (hs : ∀ u ∈ l, u.shape = 1 :: sh) :
    ∃ r, Ten.concat0 l = some r ∧ r.shape = l.length :: sh ∧ ∀ k (hk : k < l.length) i, r.get (k :: i) = l[k].get (0 :: i) := by
  cases l with
  | nil => exact absurd rfl hl
  | cons t ts =>
    have h1 := hs t (by simp)
    obtain ⟨tsh, tg⟩ := t
    simp only at h1
    subst h1
    simp only [Ten.concat0]
    rw [if_pos (by simpa using fun u hu => hs u (by simp [hu]))]
    refine ⟨_, rfl, by simp, fun k hk i => ?_⟩
    simp only [List.headD_cons, Nat.div_one, Nat.mod_one, List.tail_cons]
    rw [List.getD_eq_getElem?_getD, List.getElem?_eq_getElem hk, Option.getD_some]

/-! ## Folds -/

theorem foldAll_iff [CommSemigroup α] (xs : List α) (a : α) : foldAll (· * ·) xs = some a ↔ tot xs = a := by
  cases xs with
  | nil => simp [foldAll, tot]
  | cons x xs =>
    rw [foldAll, ← tot_fold, Option.some_inj]
    exact WithOne.coe_injective.eq_iff.symm

theorem foldAll_perm (op : α → α → α) (ha : ∀ a b c, op (op a b) c = op a (op b c)) (hc : ∀ a b, op a b = op b a)
    {xs ys : List α} (h : xs.Perm ys) : foldAll op xs = foldAll op ys := by
  let _ : CommSemigroup α := { mul := op, mul_assoc := ha, mul_comm := hc }
  have : tot xs = tot ys := by
    unfold tot
    exact (h.map _).prod_eq
  apply Option.ext
  intro a
  have h1 := foldAll_iff xs a
  have h2 := foldAll_iff ys a
  rw [this] at h1
  exact h1.trans h2.symm

theorem treeReduce_foldAll (op : α → α → α) (ha : ∀ a b c, op (op a b) c = op a (op b c)) (hc : ∀ a b, op a b = op b a)
    {xs : List α} (h : xs ≠ []) : ∃ v, treeReduce op xs = [v] ∧ foldAll op xs = some v := by
  cases xs with
  | nil => exact absurd rfl h
  | cons x xs => exact ⟨_, c10_treeReduce op ha hc x xs, rfl⟩

theorem treeLoop_map (op : α → α → α) (op' : β → β → β) (f : α → β) (hf : ∀ a b, f (op a b) = op' (f a) (f b)) (xs : List α)
    (tails : List (List α)) : treeLoop op' (xs.map f) (tails.map (List.map f)) =
      ((treeLoop op xs tails).1.map f, (treeLoop op xs tails).2.map (List.map f)) := by
  induction hn : xs.length using Nat.strong_induction_on generalizing xs tails with
  | _ n ih =>
    conv_lhs => unfold treeLoop
    conv_rhs => unfold treeLoop
    simp only [List.length_map]
    split
    · rename_i h1
      rw [← ih _ (by simp; omega) (List.zipWith op (xs.take (xs.length / 2)) ((xs.drop (xs.length / 2)).take (xs.length / 2)))
        (if xs.length % 2 = 1 then xs.drop (2 * (xs.length / 2)) :: tails else tails) rfl]
      congr 1
      · rw [List.map_zipWith, ← List.map_take, ← List.map_drop, ← List.map_take, List.zipWith_map]
        simp only [hf]
      · split <;> simp
    · rfl

theorem treeReduce_map (op : α → α → α) (op' : β → β → β) (f : α → β) (hf : ∀ a b, f (op a b) = op' (f a) (f b))
    (xs : List α) : treeReduce op' (xs.map f) = (treeReduce op xs).map f := by
  have h := treeLoop_map op op' f hf xs []
  unfold treeReduce
  simp only [List.map_nil] at h
  rw [h]
  simp only
  generalize (treeLoop op xs []).1 = a
  generalize (treeLoop op xs []).2 = l
  induction l generalizing a with
  | nil => rfl
  | cons t ts ih =>
    simp only [List.map_cons, List.foldl_cons]
    rw [← ih]
    congr 1
    rw [List.map_zipWith, List.zipWith_map]
    simp only [hf]

theorem treeLoop_closed (op : α → α → α) (P : α → Prop) (hP : ∀ a b, P a → P b → P (op a b)) (xs : List α)
    (tails : List (List α)) (hx : ∀ x ∈ xs, P x) (ht : ∀ t ∈ tails, ∀ x ∈ t, P x) :
    (∀ x ∈ (treeLoop op xs tails).1, P x) ∧ ∀ t ∈ (treeLoop op xs tails).2, ∀ x ∈ t, P x := by
  induction hn : xs.length using Nat.strong_induction_on generalizing xs tails with
  | _ n ih =>
    unfold treeLoop
    split
    · rename_i h1
      refine ih _ (by simp; omega) (List.zipWith op (xs.take (xs.length / 2)) ((xs.drop (xs.length / 2)).take (xs.length / 2)))
        (if xs.length % 2 = 1 then xs.drop (2 * (xs.length / 2)) :: tails else tails) ?_ ?_ rfl
      · intro x hm
        rw [List.mem_iff_getElem] at hm
        obtain ⟨k, hk, rfl⟩ := hm
        rw [List.getElem_zipWith]
        exact hP _ _ (hx _ (List.mem_of_mem_take (List.getElem_mem _)))
          (hx _ (List.mem_of_mem_drop (List.mem_of_mem_take (List.getElem_mem _))))
      · split
        · intro t h'
          rcases List.mem_cons.1 h' with rfl | h'
          · intro x hm; exact hx x (List.mem_of_mem_drop hm)
          · exact ht t h'
        · exact ht
    · exact ⟨hx, ht⟩

theorem treeReduce_closed (op : α → α → α) (P : α → Prop) (hP : ∀ a b, P a → P b → P (op a b)) (xs : List α)
    (hx : ∀ x ∈ xs, P x) : ∀ x ∈ treeReduce op xs, P x := by
  obtain ⟨h1, h2⟩ := treeLoop_closed op P hP xs [] hx (by simp)
  unfold treeReduce
  simp only
  generalize (treeLoop op xs []).1 = a at h1
  generalize (treeLoop op xs []).2 = l at h2
  induction l generalizing a with
  | nil => exact h1
  | cons t ts ih =>
    rw [List.foldl_cons]
    apply ih
    · intro x hm
      rw [List.mem_iff_getElem] at hm
      obtain ⟨k, hk, rfl⟩ := hm
      rw [List.getElem_zipWith]
      exact hP _ _ (h1 _ (List.getElem_mem _)) (h2 t (by simp) _ (List.getElem_mem _))
    · intro t' h'; exact h2 t' (by simp [h'])

/-- an operation that picks the operand with the larger key -/
theorem treeReduce_pick {κ : Type} [LinearOrder κ] (op : α → α → α) (key : α → κ) (h1 : ∀ a b, op a b = a ∨ op a b = b)
    (h2 : ∀ a b, key (op a b) = max (key a) (key b)) (xs : List α) (hx : xs ≠ []) :
    ∃ r, treeReduce op xs = [r] ∧ r ∈ xs ∧ ∀ x ∈ xs, key x ≤ key r := by
  have hm := treeReduce_map op max key h2 xs
  obtain ⟨v, hv, hf⟩ := treeReduce_foldAll (max : κ → κ → κ) max_assoc max_comm (xs := xs.map key) (by simpa using hx)
  rw [hv] at hm
  obtain ⟨r, hr⟩ : ∃ r, treeReduce op xs = [r] := by
    have := congrArg List.length hm
    simp only [List.length_map, List.length_singleton] at this
    exact List.length_eq_one_iff.1 this.symm
  refine ⟨r, hr, ?_, ?_⟩
  · refine treeReduce_closed op (· ∈ xs) ?_ xs (fun x h => h) r (by simp [hr])
    intro a b ha hb
    rcases h1 a b with h | h <;> rw [h] <;> assumption
  · rw [hr] at hm
    simp only [List.map_cons, List.map_nil, List.cons.injEq, and_true] at hm
    rw [← hm]
    cases xs with
    | nil => exact absurd rfl hx
    | cons x xs =>
      simp only [List.map_cons, foldAll, Option.some_inj] at hf
      rw [← hf]
      have : ∀ (l : List κ) (a : κ), a ≤ l.foldl max a ∧ ∀ y ∈ l, y ≤ l.foldl max a := by
        intro l
        induction l with
        | nil => simp
        | cons c cs ih =>
          intro a
          obtain ⟨i1, i2⟩ := ih (max a c)
          rw [List.foldl_cons]
          refine ⟨le_trans (le_max_left _ _) i1, fun y hy => ?_⟩
          rcases List.mem_cons.1 hy with rfl | hy
          · exact le_trans (le_max_right _ _) i1
          · exact i2 y hy
      obtain ⟨j1, j2⟩ := this (xs.map key) (key x)
      intro y hy
      rcases List.mem_cons.1 hy with rfl | hy
      · exact j1
      · exact j2 _ (List.mem_map_of_mem hy)

end Spu.Lemmas.T

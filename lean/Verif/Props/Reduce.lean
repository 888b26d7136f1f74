import Verif.Model.Vectorize
import Mathlib.Algebra.Group.WithOne.Defs
import Mathlib.Algebra.BigOperators.Group.List.Basic
import Mathlib.Tactic.Ring

set_option autoImplicit false

/-!
# C10, C11: tree reductions and the parallel scan equal the sequential fold
-/

namespace Spu.Props

open Spu.Model

variable {α : Type}

/-- The product of a list in the monoid that adds a unit to a commutative semigroup. -/
def tot [CommSemigroup α] (xs : List α) : WithOne α := (xs.map (WithOne.coe : α → WithOne α)).prod

section
variable [CommSemigroup α]

theorem tot_append (xs ys : List α) : tot (xs ++ ys) = tot xs * tot ys := by simp [tot]

theorem tot_single (x : α) : tot [x] = x := by simp [tot]

theorem tot_zip (xs ys : List α) (h : xs.length = ys.length) :
    tot (List.zipWith (· * ·) xs ys) = tot xs * tot ys := by
  induction xs generalizing ys with
  | nil => cases ys <;> simp_all [tot]
  | cons x xs ih =>
    cases ys with
    | nil => simp at h
    | cons y ys =>
      have := ih ys (by simpa using h)
      unfold tot at this ⊢
      rw [List.zipWith_cons_cons, List.map_cons, List.prod_cons, this, WithOne.coe_mul, List.map_cons, List.prod_cons,
        List.map_cons, List.prod_cons]
      exact mul_mul_mul_comm _ _ _ _

theorem tot_fold (x : α) (xs : List α) : ((xs.foldl (· * ·) x : α) : WithOne α) = tot (x :: xs) := by
  induction xs generalizing x with
  | nil => simp [tot]
  | cons y ys ih => rw [List.foldl_cons, ih]; simp [tot, mul_assoc]

omit [CommSemigroup α] in
theorem single_of {xs : List α} (h : xs ≠ []) (h1 : ¬ 1 < xs.length) : ∃ x, xs = [x] := by
  apply List.length_eq_one_iff.1
  have := List.length_pos_iff.2 h
  omega

omit [CommSemigroup α] in
theorem drop_halves {xs : List α} (h : ¬ xs.length % 2 = 1) : xs.drop (2 * (xs.length / 2)) = [] :=
  List.drop_eq_nil_of_le (by omega)

/-- Cutting a list into two halves of `len / 2` and the rest. -/
theorem tot_halves (xs : List α) :
    tot (List.zipWith (· * ·) (xs.take (xs.length / 2)) ((xs.drop (xs.length / 2)).take (xs.length / 2)))
      * tot (xs.drop (2 * (xs.length / 2))) = tot xs := by
  rw [tot_zip _ _ (by simp; omega), mul_assoc, ← tot_append, two_mul, ← List.drop_drop, List.take_append_drop,
    ← tot_append, List.take_append_drop]

theorem vreduceRound_tot (xs : List α) : tot (vreduceRound (· * ·) xs) = tot xs := by
  unfold vreduceRound
  simp only
  rw [← tot_halves xs]
  split
  · rename_i h
    rw [tot_append, show xs.length - 1 = 2 * (xs.length / 2) by omega]
    congr 2
    exact List.take_of_length_le (by simp; omega)
  · rename_i h
    rw [drop_halves h]
    simp [tot]

theorem vreduce_tot (xs : List α) (h : xs ≠ []) : ∃ r, vreduce (· * ·) xs = some r ∧ (r : WithOne α) = tot xs := by
  induction hn : xs.length using Nat.strong_induction_on generalizing xs with
  | _ n ih =>
    unfold vreduce
    split
    · rename_i h1
      have hl := vreduceRound_length (α := α) (· * ·) xs
      obtain ⟨r, r1, r2⟩ := ih _ (by rw [hl, ← hn]; omega) (vreduceRound (· * ·) xs) (by
        intro h0; rw [h0] at hl; simp at hl; omega) rfl
      exact ⟨r, r1, by rw [r2, vreduceRound_tot]⟩
    · rename_i h1
      obtain ⟨x, rfl⟩ := single_of h h1
      exact ⟨x, rfl, (tot_single x).symm⟩

theorem treeLoop_tot (xs : List α) (tails : List (List α)) (h : xs ≠ []) (ht : ∀ t ∈ tails, t.length = 1) :
    ∃ r, (treeLoop (· * ·) xs tails).1 = [r] ∧ (∀ t ∈ (treeLoop (· * ·) xs tails).2, t.length = 1) ∧
      (r : WithOne α) * tot (treeLoop (· * ·) xs tails).2.flatten = tot xs * tot tails.flatten := by
  induction hn : xs.length using Nat.strong_induction_on generalizing xs tails with
  | _ n ih =>
    unfold treeLoop
    split
    · rename_i h1
      simp only
      obtain ⟨r, r1, r2, r3⟩ := ih _ (by simp; omega)
        (List.zipWith (· * ·) (xs.take (xs.length / 2)) ((xs.drop (xs.length / 2)).take (xs.length / 2)))
        (if xs.length % 2 = 1 then xs.drop (2 * (xs.length / 2)) :: tails else tails) (by
          intro h0
          have := congrArg List.length h0
          simp only [List.length_zipWith, List.length_take, List.length_drop, List.length_nil] at this; omega) (by
          split
          · intro t ht'
            rcases List.mem_cons.1 ht' with rfl | h'
            · simp; omega
            · exact ht t h'
          · exact ht) rfl
      refine ⟨r, r1, r2, ?_⟩
      rw [r3, ← tot_halves xs]
      split
      · rw [List.flatten_cons, tot_append, mul_assoc]
      · rename_i h2
        rw [drop_halves h2]
        simp [tot]
    · rename_i h1
      obtain ⟨x, rfl⟩ := single_of h h1
      exact ⟨x, rfl, ht, by rw [tot_single]⟩

theorem tails_fold (tails : List (List α)) (r : α) (ht : ∀ t ∈ tails, t.length = 1) :
    ∃ s, tails.foldl (fun acc t => List.zipWith (· * ·) acc t) [r] = [s] ∧
      (s : WithOne α) = r * tot tails.flatten := by
  induction tails generalizing r with
  | nil => exact ⟨r, rfl, by simp [tot]⟩
  | cons t ts ih =>
    obtain ⟨y, rfl⟩ := List.length_eq_one_iff.1 (ht t (by simp))
    obtain ⟨s, s1, s2⟩ := ih (r * y) fun t h => ht t (by simp [h])
    exact ⟨s, s1, by rw [s2]; simp [tot, mul_assoc]⟩

omit [CommSemigroup α] in
theorem lowerExp_spec (len p : Nat) (hp : 0 < p) (hk : ∃ k, p = 2 ^ k) (hle : p ≤ len) :
    (∃ k, lowerExp len p = 2 ^ k) ∧ lowerExp len p ≤ len ∧ len < 2 * lowerExp len p := by
  induction hn : len - p using Nat.strong_induction_on generalizing p with
  | _ n ih =>
    unfold lowerExp
    split
    · obtain ⟨k, rfl⟩ := hk
      exact ih _ (by omega) (2 * 2 ^ k) (by omega) ⟨k + 1, by rw [pow_succ]; omega⟩ (by omega) rfl
    · exact ⟨hk, hle, by omega⟩

theorem halving_tot (k : Nat) (xs : List α) (h : xs.length = 2 ^ k) :
    ∃ r, halvingLoop (· * ·) xs = [r] ∧ (r : WithOne α) = tot xs := by
  induction k generalizing xs with
  | zero =>
    obtain ⟨x, rfl⟩ := List.length_eq_one_iff.1 h
    unfold halvingLoop
    exact ⟨x, by simp, (tot_single x).symm⟩
  | succ k ih =>
    have hp : 0 < 2 ^ k := Nat.two_pow_pos k
    rw [pow_succ] at h
    unfold halvingLoop
    rw [dif_pos (by omega)]
    simp only
    obtain ⟨r, r1, r2⟩ := ih (List.zipWith (· * ·) (xs.take (xs.length / 2)) ((xs.drop (xs.length / 2)).take (xs.length / 2)))
      (by simp; omega)
    refine ⟨r, r1, ?_⟩
    rw [r2, ← tot_halves xs, drop_halves (by omega)]
    simp [tot]

theorem associativeReduce_tot (xs : List α) (h : xs ≠ []) :
    ∃ r, associativeReduce (· * ·) xs = [r] ∧ (r : WithOne α) = tot xs := by
  unfold associativeReduce
  split
  · obtain ⟨x, rfl⟩ := single_of h (by omega)
    exact ⟨x, rfl, (tot_single x).symm⟩
  · rename_i h2
    obtain ⟨⟨k, hk⟩, hle, hlt⟩ := lowerExp_spec xs.length 1 (by omega) ⟨0, rfl⟩ (by omega)
    simp only
    generalize lowerExp xs.length 1 = p at *
    split
    · rename_i hne
      obtain ⟨r, r1, r2⟩ := halving_tot k (xs.take (2 * p - xs.length) ++ List.zipWith (· * ·) (xs.drop p)
        ((xs.drop (2 * p - xs.length)).take (p - (2 * p - xs.length)))) (by
          simp only [List.length_append, List.length_take, List.length_zipWith, List.length_drop]; omega)
      refine ⟨r, r1, ?_⟩
      rw [r2, tot_append, tot_zip _ _ (by simp only [List.length_take, List.length_drop]; omega),
        mul_comm (tot (xs.drop p)), ← mul_assoc, ← tot_append]
      have : xs.take (2 * p - xs.length) ++ (xs.drop (2 * p - xs.length)).take (p - (2 * p - xs.length)) = xs.take p := by
        have := List.take_add (l := xs) (i := 2 * p - xs.length) (j := p - (2 * p - xs.length))
        rw [← this]; congr 1; omega
      rw [this, ← tot_append, List.take_append_drop]
    · rename_i hne
      exact halving_tot k xs (by omega)

end

/-- C10 (`vreduce`): for every associative and commutative operation and every non-empty sequence, the log-depth
reduction is the left fold. -/
theorem c10_vreduce (op : α → α → α) (ha : ∀ a b c, op (op a b) c = op a (op b c)) (hc : ∀ a b, op a b = op b a)
    (x : α) (xs : List α) : vreduce op (x :: xs) = some (xs.foldl op x) := by
  let _ : CommSemigroup α := { mul := op, mul_assoc := ha, mul_comm := hc }
  obtain ⟨r, r1, r2⟩ := vreduce_tot (x :: xs) (by simp)
  rw [← tot_fold] at r2
  exact r1.trans (congrArg some (WithOne.coe_injective r2))

/-- C10 (`TreeReduce`): the axis is reduced to one slice, the left fold. -/
theorem c10_treeReduce (op : α → α → α) (ha : ∀ a b c, op (op a b) c = op a (op b c)) (hc : ∀ a b, op a b = op b a)
    (x : α) (xs : List α) : treeReduce op (x :: xs) = [xs.foldl op x] := by
  let _ : CommSemigroup α := { mul := op, mul_assoc := ha, mul_comm := hc }
  obtain ⟨r, r1, r2, r3⟩ := treeLoop_tot (x :: xs) [] (by simp) (by simp)
  obtain ⟨s, s1, s2⟩ := tails_fold _ r r2
  rw [← s2] at r3
  have r4 : (s : WithOne α) = tot (x :: xs) := by rw [r3]; simp [tot]
  rw [← tot_fold] at r4
  have hs : s = xs.foldl op x := WithOne.coe_injective r4
  unfold treeReduce
  rw [← hs, ← s1, ← r1]
  rfl

/-- C10 (`associative_reduce`): a row is reduced to one element, the left fold. -/
theorem c10_associativeReduce (op : α → α → α) (ha : ∀ a b c, op (op a b) c = op a (op b c)) (hc : ∀ a b, op a b = op b a)
    (x : α) (xs : List α) : associativeReduce op (x :: xs) = [xs.foldl op x] := by
  let _ : CommSemigroup α := { mul := op, mul_assoc := ha, mul_comm := hc }
  obtain ⟨r, r1, r2⟩ := associativeReduce_tot (x :: xs) (by simp)
  rw [← tot_fold] at r2
  exact r1.trans (congrArg (fun r => [r]) (WithOne.coe_injective r2))

/-- Seven elements, addition; and the maximum of five. -/
example : vreduce (· + ·) [1, 2, 3, 4, 5, 6, 7] = some 28 ∧ treeReduce (· + ·) [1, 2, 3, 4, 5, 6, 7] = [28] ∧
    associativeReduce (· + ·) [1, 2, 3, 4, 5, 6, 7] = [28] := by decide +kernel
example : vreduce max [3, 1, 9, 2, 4] = some 9 := by
  rw [c10_vreduce max max_assoc max_comm]; decide

/-- Commutativity is needed: the reducers do not keep the order of the operands. -/
theorem c10_needs_commutative : vreduce (fun (a b : List Nat) => a ++ b) [[1], [2], [3], [4]] ≠ some [1, 2, 3, 4] ∧
    treeReduce (fun (a b : List Nat) => a ++ b) [[1], [2], [3], [4]] ≠ [[1, 2, 3, 4]] ∧
    associativeReduce (fun (a b : List Nat) => a ++ b) [[1], [2], [3]] ≠ [[1, 2, 3]] := by decide +kernel

/-- An empty range has no result. -/
theorem c10_empty (op : α → α → α) : vreduce op [] = none ∧ treeReduce op [] = [] := by
  constructor
  · unfold vreduce; simp
  · unfold treeReduce treeLoop; simp

/-! ## Scan -/

/-- Left fold of the first `i + 1` elements. -/
def scanTo (op : α → α → α) (x : ℕ → α) : ℕ → α
  | 0 => x 0
  | i + 1 => op (scanTo op x i) (x (i + 1))

theorem scanTo_pairs (op : α → α → α) (ha : ∀ a b c, op (op a b) c = op a (op b c)) (x : ℕ → α) (j : ℕ) :
    scanTo op (fun j => op (x (2 * j)) (x (2 * j + 1))) j = scanTo op x (2 * j + 1) := by
  induction j with
  | zero => rfl
  | succ j ih =>
    rw [scanTo, ih]
    exact (ha (scanTo op x (2 * j + 1)) (x (2 * j + 2)) (x (2 * j + 3))).symm

theorem scan_ok [AddMonoid α] (op : α → α → α) (ha : ∀ a b c, op (op a b) c = op a (op b c)) (fuel : ℕ) :
    ∀ m : Mat α, m.cols < 2 ^ fuel →
    ∃ r, associativeScan op (fuel + 1) m = some r ∧ r.rows = m.rows ∧ r.cols = m.cols ∧
      ∀ i j, i < m.rows → j < m.cols → r.get i j = scanTo op (m.get i) j := by
  induction fuel with
  | zero =>
    intro m hm
    refine ⟨m, ?_, rfl, rfl, fun i j _ hj => by simp at hm; omega⟩
    unfold associativeScan
    rw [if_pos (Or.inl (by simp at hm; omega))]
  | succ fuel ih =>
    intro m hm
    obtain ⟨M, N, g⟩ := m
    simp only at hm ⊢
    by_cases h0 : N < 2 ∨ M * N = 0
    · refine ⟨⟨M, N, g⟩, ?_, rfl, rfl, fun i j hi hj => ?_⟩
      · unfold associativeScan; rw [if_pos h0]
      · simp only at hi hj ⊢
        have : N < 2 := by
          rcases h0 with h | h
          · exact h
          · exact absurd h (Nat.mul_ne_zero (by omega) (by omega))
        obtain rfl : j = 0 := by omega
        rfl
    · have hN : 2 ≤ N := by omega
      have hM : 0 < M := by
        rcases Nat.eq_zero_or_pos M with h | h
        · exact absurd (Or.inr (by rw [h, Nat.zero_mul])) h0
        · exact h
      rw [pow_succ] at hm
      obtain ⟨S, s1, s2, s3, s4⟩ := ih ⟨M, N / 2, fun i j => op (g i (0 + 2 * j)) (g i (1 + 2 * j))⟩ (by simp only; omega)
      simp only at s2 s3 s4
      have s5 : ∀ i j, i < M → j < N / 2 → S.get i j = scanTo op (g i) (2 * j + 1) := by
        intro i j hi hj
        rw [s4 i j hi hj, ← scanTo_pairs op ha]
        congr 1
        funext j
        rw [Nat.zero_add, Nat.add_comm 1]
      obtain ⟨SM, SN, sg⟩ := S
      simp only at s2 s3 s5
      subst s2 s3
      clear s4 ih
      unfold associativeScan
      rw [if_neg h0]
      have e1 : Mat.sliceCols (⟨SM, N, g⟩ : Mat α) 0 (N - 1) 2 = some ⟨SM, N / 2, fun i j => g i (0 + 2 * j)⟩ := by
        simp only [Mat.sliceCols]
        rw [if_neg (by omega), show (N - 1 - 0 + 2 - 1) / 2 = N / 2 by omega]
      have e2 : Mat.sliceCols (⟨SM, N, g⟩ : Mat α) 1 N 2 = some ⟨SM, N / 2, fun i j => g i (1 + 2 * j)⟩ := by
        simp only [Mat.sliceCols]
        rw [if_neg (by omega), show (N - 1 + 2 - 1) / 2 = N / 2 by omega]
      have e3 : Mat.sliceCols (⟨SM, N, g⟩ : Mat α) 2 N 2 = some ⟨SM, (N - 1) / 2, fun i j => g i (2 + 2 * j)⟩ := by
        simp only [Mat.sliceCols]
        rw [if_neg (by omega), show (N - 2 + 2 - 1) / 2 = (N - 1) / 2 by omega]
      have e4 : Mat.sliceCols (⟨SM, N, g⟩ : Mat α) 0 1 1 = some ⟨SM, 1, fun i j => g i (0 + 1 * j)⟩ := by
        simp only [Mat.sliceCols]
        rw [if_neg (by omega)]
      have e5 : (⟨SM, N / 2, sg⟩ : Mat α).scanLeft N = some ⟨SM, (N - 1) / 2, fun i j => sg i (0 + 1 * j)⟩ := by
        simp only [Mat.scanLeft, Mat.sliceCols]
        split
        · rw [if_neg (by omega), show (N / 2 - 1 - 0 + 1 - 1) / 1 = (N - 1) / 2 by omega]
        · rw [if_neg (by omega), show (N / 2 - 0 + 1 - 1) / 1 = (N - 1) / 2 by omega]
      simp only [e1, e2, e3, e4, e5, Option.bind_eq_bind, Option.bind_some, Mat.zip, and_self, if_true, s1, Mat.hcat]
      have hsame : (SM * (1 + (N - 1) / 2) = SM * (N / 2)) ↔ N % 2 = 0 := by
        rw [Nat.mul_left_cancel_iff hM]; omega
      simp only [hsame, Mat.padCols, decide_eq_true_eq, true_and]
      have hcols : 0 + (1 + (N - 1) / 2 + 1 * (1 + (N - 1) / 2 - 1)) + (if N % 2 = 0 then 1 else 0)
          = 1 + (N / 2 + 1 * (N / 2 - 1)) + (if N % 2 = 0 then 0 else 1) := by split <;> omega
      rw [if_pos hcols]
      refine ⟨_, rfl, rfl, ?_, fun i j hi hj => ?_⟩
      · simp only; split <;> omega
      · simp only at hi hj ⊢
        by_cases hj2 : j % 2 = 0
        · rw [if_pos ⟨by omega, by omega, by omega⟩,
            if_neg (show ¬ (1 ≤ j ∧ (j - 1) % (1 + 1) = 0 ∧ (j - 1) / (1 + 1) < N / 2) by omega), add_zero]
          by_cases hj0 : j = 0
          · subst hj0; simp [scanTo]
          · obtain ⟨k, rfl⟩ : ∃ k, j = 2 * k + 2 := ⟨j / 2 - 1, by omega⟩
            rw [if_neg (by omega), show 0 + 1 * ((2 * k + 2 - 0) / (1 + 1) - 1) = k by omega,
              show 2 + 2 * ((2 * k + 2 - 0) / (1 + 1) - 1) = 2 * k + 1 + 1 by omega, s5 i k hi (by omega)]
            rfl
        · rw [if_neg (by omega), if_pos ⟨by omega, by omega, by omega⟩, zero_add, s5 i _ hi (by omega)]
          congr 1; omega

/-- C11: for every associative operation, every number of rows and every row length, position `(i, j)` of the scan is the
left fold, in order, of elements `0 … j` of row `i`.  (The recursion depth is the number of binary digits of the length.) -/
theorem c11_scan [AddMonoid α] (op : α → α → α) (ha : ∀ a b c, op (op a b) c = op a (op b c)) (m : Mat α) :
    ∃ fuel r, associativeScan op fuel m = some r ∧ r.rows = m.rows ∧ r.cols = m.cols ∧
      ∀ i j, i < m.rows → j < m.cols →
        r.get i j = ((List.range j).map fun k => m.get i (k + 1)).foldl op (m.get i 0) := by
  obtain ⟨r, r1, r2, r3, r4⟩ := scan_ok op ha m.cols m Nat.lt_two_pow_self
  refine ⟨_, r, r1, r2, r3, fun i j hi hj => ?_⟩
  rw [r4 i j hi hj]
  clear r4 hj
  induction j with
  | zero => rfl
  | succ j ih => rw [scanTo, ih, List.range_succ, List.map_append, List.foldl_append]; rfl

/-- More fuel does not change a result. -/
theorem c11_fuel [Add α] [Zero α] (op : α → α → α) (f : ℕ) : ∀ {m r : Mat α}, associativeScan op f m = some r →
    ∀ k, associativeScan op (f + k) m = some r := by
  induction f with
  | zero => intro m r h; simp [associativeScan] at h
  | succ f ih =>
    intro m r h k
    rw [show f + 1 + k = (f + k) + 1 by omega]
    unfold associativeScan at h ⊢
    split at h
    · rename_i h0; rw [if_pos h0]; exact h
    · rename_i h0
      rw [if_neg h0]
      simp only [Option.bind_eq_bind, Option.bind_eq_some_iff] at h ⊢
      obtain ⟨a, ha, b, hb, c, hc, d, hd, h'⟩ := h
      exact ⟨a, ha, b, hb, c, hc, d, ih hd k, h'⟩

/-- The columns of a result row. -/
def rowOf (r : Option (Mat ℕ)) (i : ℕ) : List ℕ := match r with
  | none => []
  | some r => (List.range r.cols).map (r.get i)

/-- Two rows of five elements. -/
example : rowOf (associativeScan (· + ·) 5 ⟨2, 5, fun i j => 10 * i + j⟩) 0 = [0, 1, 3, 6, 10] ∧
    rowOf (associativeScan (· + ·) 5 ⟨2, 5, fun i j => 10 * i + j⟩) 1 = [10, 21, 33, 46, 60] := by decide +kernel

end Spu.Props

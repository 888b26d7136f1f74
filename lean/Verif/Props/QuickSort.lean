import Verif.Lemmas.QuickSelect
import Mathlib.Data.List.Sort
import Mathlib.Tactic.FinCases
import Mathlib.Data.Fin.VecNotation
set_option autoImplicit false
/-!
# C80: quick sort sorts and quick select selects, whatever the shuffle and the random bits

`kernel/hal/permute.cc:302-770, 1758-1850`.  The comparisons are revealed after a secret shuffle, so
the control flow depends on the data, on the shuffle and (for quick sort) on random bits that break
ties.  None of it can be seen in the result beyond the order of equal keys.
-/

namespace Spu.Props
open Spu.Model.SortNet Spu.Model.QuickSort Spu.Lemmas.QuickSort

/-! ## the comparator with the appended random bit -/

theorem cmpKeysLoopR_eq {m w : ℕ} (d : Dir) (bit : Bool) (a b : Row m w) (last : ℕ) :
    ∀ (ks : List ℕ) (pre res : Bool), cmpKeysLoopR d bit a b last ks pre res =
      (cmpKeysLoop d a b ks pre res ||
        (pre && (ks.all fun k => valAt a (k - 1) == valAt b (k - 1)) &&
          (valAt a last == valAt b last) && bit)) := by
  intro ks
  induction ks with
  | nil => intro pre res; simp [cmpKeysLoopR, cmpKeysLoop]
  | cons k ks ih =>
    intro pre res
    rw [cmpKeysLoopR, cmpKeysLoop]
    rw [ih, List.all_cons]
    simp only [Bool.and_assoc]

/-- the random bit only decides when all keys are equal -/
theorem cmpFuncR_eq {m w : ℕ} (d : Dir) (numKeys : ℕ) (bit : Bool) (a b : Row m w)
    (h : cmpFuncR d numKeys bit a b = true) :
    cmpFunc d numKeys a b = true ∨ ∀ k < numKeys, valAt a k = valAt b k := by
  unfold cmpFuncR at h
  rw [cmpKeysLoopR_eq, Bool.or_eq_true] at h
  rcases h with h | h
  · exact Or.inl h
  · right
    simp only [Bool.true_and, Bool.and_eq_true, List.all_eq_true, List.mem_range', beq_iff_eq] at h
    obtain ⟨⟨h1, h2⟩, -⟩ := h
    intro k hk
    by_cases e : k = numKeys - 1
    · rw [e]; exact h2
    · exact h1 (k + 1) ⟨k, by omega, by omega⟩

theorem cmpFuncR_of {m w : ℕ} (d : Dir) (numKeys : ℕ) (bit : Bool) (a b : Row m w)
    (h : cmpFuncR d numKeys bit a b = false) : cmpFunc d numKeys a b = false := by
  unfold cmpFuncR at h
  rw [cmpKeysLoopR_eq, Bool.or_eq_false_iff] at h
  exact h.1

theorem keysBefore_asymm {m w : ℕ} {d : Dir} {nk : ℕ} {a b : Row m w} (h : KeysBefore d nk a b) :
    ¬ KeysBefore d nk b a := by
  obtain ⟨k, hkn, h1, h2⟩ := h
  rintro ⟨l, hln, h3, h4⟩
  rcases lt_trichotomy k l with hkl | rfl | hkl
  · have := h3 k hkl
    cases d <;> simp only [Before] at * <;> omega
  · cases d <;> simp only [Before] at * <;> omega
  · have := h1 l hkl
    cases d <;> simp only [Before] at * <;> omega

theorem cmpFunc_decides {m w : ℕ} (hw : 2 ≤ w) (d : Dir) (nk : ℕ) (hk : 0 < nk) :
    Decides (cmpFunc (m := m) (w := w) d nk) (InRange nk) (fun a b => ¬ KeysBefore d nk b a) :=
  ⟨fun a b ha hb h => keysBefore_asymm ((cmpFunc_iff hw d nk hk a b ha hb).1 h),
   fun a b ha hb h h' => by
    have := (cmpFunc_iff hw d nk hk a b ha hb).2 h'
    rw [h] at this
    exact absurd this (by simp),
   fun a b c h1 h2 => keysBefore_trans h1 h2⟩

theorem cmpFuncR_decides {m w : ℕ} (hw : 2 ≤ w) (d : Dir) (nk : ℕ) (hk : 0 < nk) (bit : Bool) :
    Decides (cmpFuncR (m := m) (w := w) d nk bit) (InRange nk)
      (fun a b => ¬ KeysBefore d nk b a) := by
  have hd := cmpFunc_decides (m := m) hw d nk hk
  refine ⟨fun a b ha hb h => ?_, fun a b ha hb h => hd.no a b ha hb (cmpFuncR_of _ _ _ _ _ h),
    hd.trans⟩
  rcases cmpFuncR_eq d nk bit a b h with h | h
  · exact hd.yes a b ha hb h
  · rintro ⟨k, hkn, -, h2⟩
    have : keyInt a k = keyInt b k := by unfold keyInt; rw [h k hkn]
    cases d <;> simp only [Before] at h2 <;> omega

/-! ## the shuffle -/

theorem rowAt_shuffle {m w n : ℕ} (π : Equiv.Perm (Fin n)) (c : Cols m w) (i : Fin n) :
    rowAt (shuffle π c) i = rowAt c (π i) := by
  funext o
  simp [rowAt, shuffle, List.getD]

theorem rows_shuffle {m w n : ℕ} (π : Equiv.Perm (Fin n)) (c : Cols m w) :
    (rows n (shuffle π c)).Perm (rows n c) := by
  have : rows n (shuffle π c) = List.ofFn ((fun i : Fin n => rowAt c i) ∘ π) := by
    unfold rows
    congr 1
    funext i
    exact rowAt_shuffle π c i
  rw [this]
  exact Equiv.Perm.ofFn_comp_perm π _

theorem shuffle_length {m w n : ℕ} (π : Equiv.Perm (Fin n)) (c : Cols m w) (o : Fin m) :
    (shuffle π c o).length = n := by simp [shuffle]

/-! ## quick sort -/

/-- **C80 (quick sort)**: for every number of operands, every length, every threshold, every
shuffle and all random bits the sort finishes, the rows of the result are those of the input, and
they are ordered by their keys, the first key being the most significant. -/
theorem c80_quick_sort {m w n : ℕ} (hw : 2 ≤ w) (thres : ℤ) (ht : 0 ≤ thres) (d : Dir)
    (numKeys : ℕ) (hk : 0 < numKeys) (π : Equiv.Perm (Fin n)) (bits : ℕ → ℕ → Bool)
    (c : Cols m w) (hD : ∀ i < n, InRange numKeys (rowAt c i)) :
    ∃ c', quickSort thres d numKeys π bits c = some c' ∧ (∀ o, (c' o).length = n) ∧
      (rows n c').Perm (rows n c) ∧
      ∀ i j, i < j → j < n → ¬ KeysBefore d numKeys (rowAt c' j) (rowAt c' i) := by
  have hD' : ∀ i < n, InRange numKeys (rowAt (shuffle π c) i) := fun i hi => by
    rw [rowAt_shuffle π c ⟨i, hi⟩]; exact hD _ (π ⟨i, hi⟩).2
  obtain ⟨c', h1, h2, h3⟩ := quickMergesort_ok (n := n) ht
    (fun r k => cmpFuncR_decides hw d numKeys hk (bits r k)) (cmpFunc_decides hw d numKeys hk)
    (shuffle π c) (shuffle_length π c) hD'
  refine ⟨c', h1, h2.len, h2.perm.trans (rows_shuffle π c), fun i j hij hj => ?_⟩
  rcases h3 i j (by omega) (by omega) (by omega) with ⟨iv, hiv, -⟩ | h
  · simp at hiv
  · simpa [rz] using h

/-- the order it leaves: equal keys may come out in any order, so the sort is not stable.  Two
records with the same key keep their order under one shuffle and change places under another. -/
theorem c80_not_stable : ∃ (c : Cols 2 16) (π π' : Equiv.Perm (Fin 2)),
    (∀ i < 2, InRange 1 (rowAt c i)) ∧
    (quickSort 32 .ascending 1 π (fun _ _ => false) c).map (fun c => c 1) = some [0, 1] ∧
    (quickSort 32 .ascending 1 π' (fun _ _ => false) c).map (fun c => c 1) = some [1, 0] := by
  refine ⟨fun o => if o = 0 then [7, 7] else [0, 1], Equiv.swap 0 1, Equiv.refl _, ?_, ?_, ?_⟩
  · unfold InRange; decide +kernel
  · decide +kernel
  · decide +kernel

/-! non-vacuity: seven rows, two keys with ties, partition rounds down to single elements
(threshold 0), with a merge stage (threshold 2), and the network alone (threshold 32) -/
def quickDemo (thres : ℤ) : Option (List (List ℤ)) :=
  (quickSort thres .ascending 2 (Fin.revPerm (n := 7)) (fun r k => (r + k) % 2 = 0)
    netDemo).map showCols

example : quickDemo 0 =
    some [[0, 1, 1, 2, 3, 3, 3], [9, 4, 4, 0, -1, 5, 7], [6, 4, 1, 3, 2, 0, 5]] := by
  decide +kernel

example : quickDemo 2 =
    some [[0, 1, 1, 2, 3, 3, 3], [9, 4, 4, 0, -1, 5, 7], [6, 4, 1, 3, 2, 0, 5]] := by
  decide +kernel

example : quickDemo 32 =
    some [[0, 1, 1, 2, 3, 3, 3], [9, 4, 4, 0, -1, 5, 7], [6, 1, 4, 3, 2, 0, 5]] := by
  decide +kernel

/-! ## top-k -/

/-- the values are in the range for which the ring comparison is exact -/
def ValRange {w n : ℕ} (x : Fin n → BitVec w) : Prop :=
  ∀ i, -(2 ^ (w - 2) : ℤ) ≤ (x i).toInt ∧ (x i).toInt < 2 ^ (w - 2)

/-- `a` comes strictly before `b` -/
def ValBefore {w : ℕ} (d : Dir) (a b : BitVec w) : Prop := Before d a.toInt b.toInt

theorem before_trans {d : Dir} {a b c : ℤ} (h1 : ¬ Before d b a) (h2 : ¬ Before d c b) :
    ¬ Before d c a := by
  cases d <;> simp only [Before] at * <;> omega

theorem before_irrefl {d : Dir} {a : ℤ} : ¬ Before d a a := by
  cases d <;> simp only [Before] <;> omega

theorem scalarCmp_iff {w : ℕ} (hw : 2 ≤ w) (d : Dir) (x y : BitVec w)
    (hx : -(2 ^ (w - 2) : ℤ) ≤ x.toInt ∧ x.toInt < 2 ^ (w - 2))
    (hy : -(2 ^ (w - 2) : ℤ) ≤ y.toInt ∧ y.toInt < 2 ^ (w - 2)) :
    scalarCmp d x y = true ↔ ValBefore d x y := by
  cases d
  · exact ringLess_iff hw x y hx hy
  · exact ringLess_iff hw y x hy hx

/-- a row whose value is in range -/
def RowRange {w : ℕ} (a : Row 3 w) : Prop :=
  -(2 ^ (w - 2) : ℤ) ≤ (a 0).toInt ∧ (a 0).toInt < 2 ^ (w - 2)

theorem topkCmp_decides {w : ℕ} (hw : 2 ≤ w) (d : Dir) (cfg : TopKConfig) :
    Decides (topkCmp (w := w) d cfg) RowRange (fun a b => ¬ ValBefore d (b 0) (a 0)) := by
  refine ⟨fun a b ha hb h h' => ?_, fun a b ha hb h h' => ?_, fun a b c h1 h2 => before_trans h1 h2⟩
  · unfold topkCmp at h
    have : scalarCmp d (a 0) (b 0) = true ∨ a 0 = b 0 := by
      dsimp only at h
      split at h
      · exact Or.inl h
      · simp only [Bool.or_eq_true, Bool.and_eq_true, beq_iff_eq] at h
        rcases h with h | h
        · exact Or.inl h
        · exact Or.inr h.1
    rcases this with h | h
    · rw [scalarCmp_iff hw d _ _ ha hb] at h
      unfold ValBefore at h h'
      cases d <;> simp only [Before] at * <;> omega
    · rw [h] at h'
      exact before_irrefl h'
  · have h1 := (scalarCmp_iff hw d _ _ ha hb).2 h'
    unfold topkCmp at h
    rw [h1] at h
    dsimp only at h
    split at h <;> simp at h

theorem netCmp_decides {w : ℕ} (hw : 2 ≤ w) (d : Dir) :
    Decides (fun a b : Row 3 w => scalarCmp d (a 0) (b 0)) RowRange
      (fun a b => ¬ ValBefore d (b 0) (a 0)) := by
  refine ⟨fun a b ha hb h h' => ?_, fun a b ha hb h h' => ?_, fun a b c h1 h2 => before_trans h1 h2⟩
  · rw [scalarCmp_iff hw d _ _ ha hb] at h
    unfold ValBefore at h h'
    cases d <;> simp only [Before] at * <;> omega
  · have h1 := (scalarCmp_iff hw d _ _ ha hb).2 h'
    rw [h] at h1
    cases h1

/-- the row of input position `i` -/
def inRow {w n : ℕ} (x rnd : Fin n → BitVec w) (i : Fin n) : Row 3 w := fun o =>
  match o with
  | 0 => x i
  | 1 => rnd i
  | 2 => BitVec.ofNat w i

theorem rowAt_topkInput {w n : ℕ} (x rnd : Fin n → BitVec w) (i : Fin n) :
    rowAt (topkInput x rnd) i = inRow x rnd i := by
  funext o
  fin_cases o <;> simp [rowAt, topkInput, inRow, List.getD]

/-- columns that are a rearrangement of the input, read as a list of input positions -/
theorem topk_positions {w n : ℕ} (x rnd : Fin n → BitVec w) (c : Cols 3 w)
    (hlen : ∀ o, (c o).length = n) (hp : (rows n c).Perm (rows n (topkInput x rnd))) :
    ∃ l : List (Fin n), l.Perm (List.finRange n) ∧
      (∀ (i : ℕ) (hi : i < l.length), rowAt c i = inRow x rnd l[i]) ∧
      c 0 = l.map x ∧ c 2 = l.map fun i : Fin n => BitVec.ofNat w i := by
  have e : rows n (topkInput x rnd) = (List.finRange n).map (inRow x rnd) := by
    unfold rows
    rw [List.ofFn_eq_map]
    exact List.map_congr_left fun i _ => rowAt_topkInput x rnd i
  obtain ⟨l, h1, h2⟩ := perm_map_exists (inRow x rnd) hp (List.finRange n) e
  have hl : l.length = n := by rw [h1.length_eq, List.length_finRange]
  have hrow : ∀ (i : ℕ) (hi : i < l.length), rowAt c i = inRow x rnd l[i] := by
    intro i hi
    have h3 : (rows n c)[i]? = (l.map (inRow x rnd))[i]? := by rw [h2]
    rw [rows_eq_map] at h3
    simpa [show i < n by omega, hi] using h3
  have hcol : ∀ o i (hi : i < l.length), (c o)[i]? = some (inRow x rnd l[i] o) := by
    intro o i hi
    have := congrFun (hrow i hi) o
    unfold rowAt at this
    rw [List.getElem?_eq_getElem (by rw [hlen]; omega)]
    rw [List.getD, List.getElem?_eq_getElem (by rw [hlen]; omega)] at this
    simpa using this
  refine ⟨l, h1, hrow, ?_, ?_⟩
  · apply List.ext_getElem?
    intro i
    by_cases hi : i < l.length
    · rw [hcol 0 i hi]; simp [hi, inRow]
    · rw [List.getElem?_eq_none (by rw [hlen]; omega), List.getElem?_eq_none (by simp; omega)]
  · apply List.ext_getElem?
    intro i
    by_cases hi : i < l.length
    · rw [hcol 2 i hi]; simp [hi, inRow]
    · rw [List.getElem?_eq_none (by rw [hlen]; omega), List.getElem?_eq_none (by simp; omega)]

/-- what `topk_1d` returns for a list of chosen positions -/
def topkResult {w n : ℕ} (cfg : TopKConfig) (x : Fin n → BitVec w) (sel : List (Fin n)) :
    List (BitVec w) × Option (List (BitVec w)) :=
  (sel.map x, if cfg.valueOnly then none else some (sel.map fun i : Fin n => BitVec.ofNat w i))

theorem topkOut_eq {w n : ℕ} (cfg : TopKConfig) (x : Fin n → BitVec w) (c : Cols 3 w)
    (l : List (Fin n)) (h0 : c 0 = l.map x) (h2 : c 2 = l.map fun i : Fin n => BitVec.ofNat w i) :
    topkOut cfg c = topkResult cfg x (l.take cfg.kHi.toNat) := by
  unfold topkOut topkResult
  rw [h0, h2, List.map_take, List.map_take]

/-- **C80 (top-k)**: for every vector, every shuffle, with and without the random numbers that break
ties, and all `0 < k_lo ≤ k_hi ≤ n`, the selection ends (after at most `2 n + 1` rounds) and
returns the `k_hi` best values with their positions: the first `k_lo` of them are the `k_lo` best,
the last of either group is the worst of its group.  Moreover the values from place `k_lo` on are in
order. -/
theorem c80_topk_select {w n : ℕ} (hw : 2 ≤ w) (d : Dir) (cfg : TopKConfig)
    (π : Equiv.Perm (Fin n)) (x rnd : Fin n → BitVec w) (hx : ValRange x)
    (hk : topkChecks cfg n) (fuel : ℕ) (hf : 2 * n + 2 ≤ fuel) :
    ∃ sel, topkSelect d cfg π x rnd fuel = some (topkResult cfg x sel) ∧
      Spec.TopkSel (ValBefore d) x cfg.kLo.toNat cfg.kHi.toNat sel ∧
      ∀ (i j : ℕ) (hi : i < sel.length) (hj : j < sel.length), cfg.kLo.toNat - 1 ≤ i → i < j →
        ¬ ValBefore d (x sel[j]) (x sel[i]) := by
  obtain ⟨k1, k2, k3⟩ := id hk
  have hD : ∀ i < n, RowRange (rowAt (shuffle π (topkInput x rnd)) i) := fun i hi => by
    rw [rowAt_shuffle π _ ⟨i, hi⟩, rowAt_topkInput]
    exact hx _
  have hQ : QS (fun a b : Row 3 w => ¬ ValBefore d (b 0) (a 0)) n (shuffle π (topkInput x rnd))
      (shuffle π (topkInput x rnd)) ([(0, (n : ℤ) - 1)] ++ []) := by
    refine ⟨⟨shuffle_length π _, List.Perm.refl _⟩, fun iv hiv => ?_, by simp,
      fun p q hp hpq hqn => Or.inl ?_⟩
    · rw [List.append_nil, List.mem_singleton] at hiv
      subst hiv; simp
    · exact ⟨(0, (n : ℤ) - 1), by simp, hp, by show q ≤ (n : ℤ) - 1; omega⟩
  obtain ⟨c, h1, h2, h3⟩ := selectLoop_ok (topkCmp_decides hw d cfg) hD cfg fuel _ _ [] hQ
    (by simp) (by simp [work, ivLen]; omega)
  obtain ⟨l, l1, l2, l3, l4⟩ := topk_positions x rnd c h2.len
    (h2.perm.trans (rows_shuffle π _))
  have hl : l.length = n := by rw [l1.length_eq, List.length_finRange]
  -- places `kLo - 1` to `kHi - 1`
  have hplace : ∀ (k : ℕ), cfg.kLo.toNat - 1 ≤ k → k ≤ cfg.kHi.toNat - 1 → ∀ (i : ℕ)
      (hk : k < l.length) (hi : i < l.length),
      (i < k → ¬ ValBefore d (x l[k]) (x l[i])) ∧ (k < i → ¬ ValBefore d (x l[i]) (x l[k])) := by
    intro k a1 a2 i hk hi
    obtain ⟨b1, b2⟩ := h3 k (by omega) (by omega) (by omega) (by omega)
    refine ⟨fun h => ?_, fun h => ?_⟩
    · have := b1 i (by omega) (by omega)
      simpa [rz, l2 k hk, l2 i hi, inRow] using this
    · have := b2 i (by omega) (by omega)
      simpa [rz, l2 k hk, l2 i hi, inRow] using this
  refine ⟨l.take cfg.kHi.toNat, ?_, ?_, ?_⟩
  · unfold topkSelect
    rw [if_pos hk, h1]
    exact congrArg some (topkOut_eq cfg x c l l3 l4)
  · refine topkSel_of_order (kLo := cfg.kLo.toNat) (kHi := cfg.kHi.toNat)
        (before := ValBefore d) (fun a b c h1 h2 => before_trans h1 h2) (fun a => before_irrefl) x
      (by omega) (by omega) (by omega) l l1 fun k hk => ?_
    rcases hk with rfl | rfl
    · exact hplace _ (le_refl _) (by omega)
    · exact hplace _ (by omega) (le_refl _)
  · intro i j hi hj hki hij
    rw [List.length_take] at hi hj
    simp only [List.getElem_take]
    exact (hplace i hki (by omega) j (by omega) (by omega)).2 hij

/-- **C80 (top-k by sorting)**: without the kernels for shuffling, the sorting network gives the same
guarantee, and all returned values are in order. -/
theorem c80_topk_network {w n : ℕ} (hw : 2 ≤ w) (d : Dir) (cfg : TopKConfig)
    (x rnd : Fin n → BitVec w) (hx : ValRange x) (hk : topkChecks cfg n) :
    ∃ sel, topkNetwork d cfg x rnd = some (topkResult cfg x sel) ∧
      Spec.TopkSel (ValBefore d) x cfg.kLo.toNat cfg.kHi.toNat sel ∧
      ∀ (i j : ℕ) (hi : i < sel.length) (hj : j < sel.length), i < j →
        ¬ ValBefore d (x sel[j]) (x sel[i]) := by
  obtain ⟨k1, k2, k3⟩ := id hk
  obtain ⟨c, h1, h2, h3, h4⟩ := c32_network_sorts (n := n) (netCmp_decides hw d) (topkInput x rnd)
    (fun o => by fin_cases o <;> simp [topkInput])
    (fun i hi => by rw [show i = ((⟨i, hi⟩ : Fin n) : ℕ) from rfl, rowAt_topkInput]; exact hx _)
  obtain ⟨l, l1, l2, l3, l4⟩ := topk_positions x rnd c h2 h3
  have hl : l.length = n := by rw [l1.length_eq, List.length_finRange]
  have hord : ∀ (i j : ℕ) (hi : i < l.length) (hj : j < l.length), i < j →
      ¬ ValBefore d (x l[j]) (x l[i]) := by
    intro i j hi hj hij
    have := h4 i j hij (by omega)
    simpa [l2 i hi, l2 j hj, inRow] using this
  refine ⟨l.take cfg.kHi.toNat, ?_, ?_, ?_⟩
  · unfold topkNetwork
    rw [if_pos hk, h1]
    exact congrArg some (topkOut_eq cfg x c l l3 l4)
  · exact topkSel_of_order (kLo := cfg.kLo.toNat) (kHi := cfg.kHi.toNat)
        (before := ValBefore d) (fun a b c h1 h2 => before_trans h1 h2) (fun a => before_irrefl) x
      (by omega) (by omega) (by omega) l l1 fun k hk i hk' hi =>
        ⟨fun h => hord i k hi hk' h, fun h => hord k i hk' hi h⟩
  · intro i j hi hj hij
    rw [List.length_take] at hi hj
    simp only [List.getElem_take]
    exact hord i j (by omega) (by omega) hij

/-- **C80 (public top-k)**: on a public vector, any standard library whose `nth_element` keeps its
contract gives the same guarantee (the order inside the groups is up to the library). -/
theorem c80_topk_public {w n : ℕ} (d : Dir) (cfg : TopKConfig) (x : Fin n → BitVec w)
    (nth : ℕ → ℕ → List (Fin n) → List (Fin n))
    (hn : ∀ f k l, Spec.NthElement (fun i j => ValBefore d (x i) (x j)) f k l (nth f k l))
    (hk : topkChecks cfg n) :
    ∃ sel, topkPublic nth cfg x = some (topkResult cfg x sel) ∧
      Spec.TopkSel (ValBefore d) x cfg.kLo.toNat cfg.kHi.toNat sel := by
  obtain ⟨k1, k2, k3⟩ := id hk
  have hperm : ∀ f k l, (nth f k l).Perm l := by
    intro f k l
    have h := hn f k l
    rw [← List.take_append_drop f (nth f k l), h.keep]
    conv_rhs => rw [← List.take_append_drop f l]
    exact h.perm.append_left _
  set l1 := nth 0 (cfg.kLo - 1).toNat (List.finRange n) with hl1
  have p1 : l1.Perm (List.finRange n) := hperm _ _ _
  have n1 : l1.length = n := by rw [p1.length_eq, List.length_finRange]
  have s1 := (hn 0 (cfg.kLo - 1).toNat (List.finRange n)).split
  rw [← hl1] at s1
  by_cases hlt : cfg.kLo < cfg.kHi
  · set l2 := nth cfg.kLo.toNat (cfg.kHi - 1).toNat l1 with hl2
    have p2 : l2.Perm l1 := hperm _ _ _
    have n2 : l2.length = n := by rw [p2.length_eq, n1]
    have h2 := hn cfg.kLo.toNat (cfg.kHi - 1).toNat l1
    rw [← hl2] at h2
    refine ⟨l2.take cfg.kHi.toNat, ?_, ?_⟩
    · unfold topkPublic
      rw [if_pos hk]
      dsimp only
      rw [if_pos hlt]
      rfl
    · -- places before `kLo` are those of `l1`; the others hold elements of `l1` behind `kLo`
      have hfront : ∀ (i : ℕ) (hi : i < l2.length) (hi' : i < l1.length), i < cfg.kLo.toNat →
          l2[i] = l1[i] := by
        intro i hi hi' hik
        have : (l2.take cfg.kLo.toNat)[i]? = (l1.take cfg.kLo.toNat)[i]? := by rw [h2.keep]
        rw [List.getElem?_take_of_lt hik, List.getElem?_take_of_lt hik,
          List.getElem?_eq_getElem hi, List.getElem?_eq_getElem hi'] at this
        exact Option.some.inj this
      have hback : ∀ (j : ℕ) (hj : j < l2.length), cfg.kLo.toNat ≤ j →
          ∃ j', ∃ hj' : j' < l1.length, cfg.kLo.toNat ≤ j' ∧ l2[j] = l1[j'] := by
        intro j hj hkj
        have hm : l2[j] ∈ l2.drop cfg.kLo.toNat := by
          rw [List.mem_iff_getElem]
          exact ⟨j - cfg.kLo.toNat, by rw [List.length_drop]; omega, by
            rw [List.getElem_drop]; congr 1; omega⟩
        have hm := h2.perm.subset hm
        obtain ⟨k, hk, e⟩ := List.getElem_of_mem hm
        rw [List.length_drop] at hk
        rw [List.getElem_drop] at e
        exact ⟨_, by omega, by omega, e.symm⟩
      have hcross : ∀ (i j : ℕ) (hi : i < l2.length) (hj : j < l2.length), i < cfg.kLo.toNat →
          cfg.kLo.toNat ≤ j → ¬ ValBefore d (x l2[j]) (x l2[i]) := by
        intro i j hi hj hik hkj
        obtain ⟨j', hj', h5, e⟩ := hback j hj hkj
        rw [e, hfront i hi (by omega) hik]
        exact s1 i j' (by omega) hj' (Nat.zero_le _) (by omega) (by omega)
      refine topkSel_of_order (kLo := cfg.kLo.toNat) (kHi := cfg.kHi.toNat)
        (before := ValBefore d) (fun a b c h1 h2 => before_trans h1 h2) (fun a => before_irrefl) x
        (by omega) (by omega) (by omega) l2 (p2.trans p1) fun k hk i hk' hi => ?_
      rcases hk with rfl | rfl
      · refine ⟨fun h => ?_, fun h => ?_⟩
        · rw [hfront _ hk' (by omega) (by omega), hfront i hi (by omega) (by omega)]
          exact s1 i _ (by omega) (by omega) (Nat.zero_le _) (by omega) (by omega)
        · exact hcross _ i hk' hi (by omega) (by omega)
      · refine ⟨fun h => ?_, fun h => ?_⟩
        · by_cases hik : i < cfg.kLo.toNat
          · exact hcross i _ hi hk' hik (by omega)
          · exact h2.split i _ hi hk' (by omega) (by omega) (by omega)
        · exact h2.split _ i hk' hi (by omega) (by omega) (by omega)
  · have he : cfg.kHi = cfg.kLo := by omega
    refine ⟨l1.take cfg.kHi.toNat, ?_, ?_⟩
    · unfold topkPublic
      rw [if_pos hk]
      dsimp only
      rw [if_neg hlt]
      rfl
    · refine topkSel_of_order (kLo := cfg.kLo.toNat) (kHi := cfg.kHi.toNat)
        (before := ValBefore d) (fun a b c h1 h2 => before_trans h1 h2) (fun a => before_irrefl) x
        (by omega) (by omega) (by omega) l1 p1 fun k hk i hk' hi => ?_
      have : k = (cfg.kLo - 1).toNat := by rcases hk with h | h <;> omega
      subst this
      exact ⟨fun h => s1 i _ hi hk' (Nat.zero_le _) (by omega) (le_refl _),
        fun h => s1 _ i hk' hi (Nat.zero_le _) (le_refl _) (by omega)⟩

/-! non-vacuity: sorting the tail keeps the contract of `nth_element` -/
def nthBySort {α : Type*} (le : α → α → Bool) (f _k : ℕ) (l : List α) : List α :=
  l.take f ++ (l.drop f).insertionSort (fun a b => le a b = true)

theorem nthBySort_ok {w n : ℕ} (d : Dir) (x : Fin n → BitVec w) (f k : ℕ) (l : List (Fin n))
    (le : Fin n → Fin n → Bool) (hle : ∀ i j, le i j = true ↔ ¬ ValBefore d (x j) (x i)) :
    Spec.NthElement (fun i j => ValBefore d (x i) (x j)) f k l (nthBySort le f k l) := by
  have hlen : (nthBySort le f k l).length = l.length := by
    simp [nthBySort]; omega
  have hs : ((l.drop f).insertionSort (fun a b => le a b = true)).Pairwise
      fun a b => le a b = true := by
    have : Std.Total fun a b : Fin n => le a b = true := ⟨fun a b => by
      rw [hle, hle]
      unfold ValBefore
      cases d <;> simp only [Before] <;> omega⟩
    have : IsTrans (Fin n) fun a b : Fin n => le a b = true := ⟨fun a b c h1 h2 => by
      rw [hle] at *; exact before_trans h1 h2⟩
    exact List.pairwise_insertionSort _ _
  unfold nthBySort
  by_cases hf : f ≤ l.length
  · have ht : (l.take f).length = f := by rw [List.length_take]; omega
    refine ⟨?_, ?_, fun i j hi hj h1 h2 h3 => ?_⟩
    · rw [List.take_append_of_le_length (by omega), List.take_take, min_self]
    · rw [List.drop_append_of_le_length (by omega), List.drop_of_length_le (by omega),
        List.nil_append]
      exact List.perm_insertionSort _ _
    · rw [List.getElem_append_right (by omega), List.getElem_append_right (by omega)]
      rcases Nat.lt_or_ge i j with h | h
      · have := List.pairwise_iff_getElem.1 hs (i - (l.take f).length) (j - (l.take f).length)
          (by rw [List.length_append] at hi; omega) (by rw [List.length_append] at hj; omega)
          (by omega)
        exact (hle _ _).1 this
      · have : i = j := by omega
        subst this
        exact before_irrefl
  · have e : l.drop f = [] := List.drop_of_length_le (by omega)
    rw [e]
    refine ⟨by simp [List.take_take], by simp [e], fun i j hi hj h1 h2 h3 => ?_⟩
    simp at hi
    omega

/-! non-vacuity: the three best of eight values with repetitions, smallest and largest, `k_lo = 3`,
`k_hi = 5` -/
def topkDemo : Fin 8 → BitVec 16 := ![5, 3, 65534, 9, 3, 65535, 7, 3]

def topkShow (r : Option (List (BitVec 16) × Option (List (BitVec 16)))) :
    Option (List ℤ × Option (List ℕ)) :=
  r.map fun p => (p.1.map BitVec.toInt, p.2.map fun l => l.map BitVec.toNat)

example : topkChecks ⟨false, true, 3, 5⟩ 8 ∧ ValRange topkDemo := by
  refine ⟨by decide, ?_⟩
  unfold ValRange
  decide +kernel

example : topkShow (topkSelect .ascending ⟨false, true, 3, 5⟩ (Fin.revPerm (n := 8)) topkDemo
    (fun i => BitVec.ofNat 16 (i * 37 % 8)) 18) = some ([-1, -2, 3, 3, 3], some [5, 2, 7, 4, 1]) := by
  decide +kernel

example : topkShow (topkSelect .descending ⟨true, false, 3, 3⟩ (Fin.revPerm (n := 8)) topkDemo
    (fun _ => 0) 18) = some ([9, 7, 5], none) := by
  decide +kernel

example : topkShow (topkNetwork .descending ⟨false, false, 2, 4⟩ topkDemo (fun _ => 0)) =
    some ([9, 7, 5, 3], some [3, 6, 0, 7]) := by
  decide +kernel

example : topkShow (topkPublic (nthBySort fun i j => decide ((topkDemo i).toInt ≤ (topkDemo j).toInt))
    ⟨false, false, 2, 4⟩ topkDemo) = some ([-2, -1, 3, 3], some [2, 5, 1, 4]) := by
  decide +kernel

end Spu.Props

import Verif.Model.SortDim
import Verif.Spec.SortDim
import Verif.Props.Convolution
import Verif.Lemmas.DynSlice
set_option autoImplicit false
/-!
# Lemmas for C81: lines of a tensor
-/

namespace Spu.Lemmas.SortDim
open Spu.Spec Spu.Model Spu.Model.SortDim Spu.Lemmas Spu.Lemmas.T Spu.Props Spu.Model.Con

variable {α : Type}

theorem swapLast_map (f : ℕ → ℕ) (l : List ℕ) (d : ℕ) (hd : d < l.length) :
    (swapLast l d).map f = swapLast (l.map f) d := by
  unfold swapLast
  have h1 : l.length - 1 < l.length := by omega
  simp [List.map_set, List.getD, List.getElem?_eq_getElem hd, List.getElem?_eq_getElem h1]

theorem swapLast_perm (l : List ℕ) (d : ℕ) (hd : d < l.length) : (swapLast l d).Perm l := by
  have h1 : l.length - 1 < l.length := by omega
  have := List.set_set_perm hd h1
  unfold swapLast
  simpa [List.getD, List.getElem?_eq_getElem hd, List.getElem?_eq_getElem h1] using this

theorem swapLast_last (l : List ℕ) (d : ℕ) (hd : d < l.length) :
    swapLast l d = (swapLast l d).dropLast ++ [l.getD d 0] := by
  have hlen : (swapLast l d).length = l.length := by simp [swapLast]
  have hne : swapLast l d ≠ [] := by
    intro h; rw [h] at hlen; simp at hlen; omega
  conv_lhs => rw [← List.dropLast_append_getLast hne]
  congr 2
  rw [List.getLast_eq_getElem]
  simp only [hlen]
  simp [swapLast]

theorem permuted_swapLast (s : List ℕ) (d : ℕ) (hd : d < s.length) :
    permuted (swapLast (List.range s.length) d) s = swapLast s d := by
  unfold permuted
  rw [swapLast_map _ _ _ (by simpa using hd)]
  congr 1
  exact map_range_getD s

theorem inverse_fold (p : List ℕ) (n : ℕ) (hn : p.Nodup) (hm : ∀ a ∈ p, a < n) (a : ℕ) (ha : a ∈ p) :
    ∀ (k : ℕ) (q : List ℕ), q.length = n → k ≤ p.length → p.idxOf a < k →
      ((List.range k).foldl (fun q i => q.set (p.getD i 0) i) q)[a]? = some (p.idxOf a) := by
  intro k
  induction k with
  | zero => intro q _ _ h; omega
  | succ k ih =>
    intro q hq hk h
    rw [List.range_succ, List.foldl_append, List.foldl_cons, List.foldl_nil]
    have hlen : ∀ (l : List ℕ) (q : List ℕ), (l.foldl (fun q i => q.set (p.getD i 0) i) q).length =
        q.length := by
      intro l
      induction l with
      | nil => intro q; rfl
      | cons b l ih => intro q; rw [List.foldl_cons, ih]; simp
    have hkp : k < p.length := by omega
    have e : p.getD k 0 = p[k] := by simp [List.getD, List.getElem?_eq_getElem hkp]
    rw [List.getElem?_set, hlen, hq, e]
    by_cases h2 : p[k] = a
    · rw [if_pos h2, if_pos (hm _ (List.getElem_mem _))]
      subst h2
      rw [hn.idxOf_getElem]
    · rw [if_neg h2]
      apply ih q hq (by omega)
      rcases Nat.lt_or_ge (p.idxOf a) k with h3 | h3
      · exact h3
      · exfalso
        have h4 : p.idxOf a = k := by omega
        apply h2
        have := List.getElem_idxOf (List.idxOf_lt_length_iff.2 ha)
        simp only [h4] at this
        exact this

theorem inverseIndex_eq {p : List ℕ} {n : ℕ} (h : p.Perm (List.range n)) :
    inverseIndex p = inversePerm p := by
  obtain ⟨h1, h2, h3⟩ := perm_facts h
  have hlen : ∀ (l : List ℕ) (q : List ℕ), (l.foldl (fun q i => q.set (p.getD i 0) i) q).length =
      q.length := by
    intro l
    induction l with
    | nil => intro q; rfl
    | cons b l ih => intro q; rw [List.foldl_cons, ih]; simp
  apply List.ext_getElem?
  intro a
  by_cases ha : a < n
  · have hm := (h3 a).2 ha
    have := inverse_fold p n h2 (fun a ha => (h3 a).1 ha) a hm p.length (List.replicate p.length 0)
      (by simpa using h1) (le_refl _) (List.idxOf_lt_length_iff.2 hm)
    unfold inverseIndex inversePerm
    rw [this]
    simp [h1, ha]
  · rw [List.getElem?_eq_none, List.getElem?_eq_none]
    · simp [inversePerm, h1]; omega
    · unfold inverseIndex; rw [hlen]; simp [h1]; omega

/-! ## moving dimension `d` to the back -/

/-- everything about the exchange of dimension `d` with the last one -/
structure Moved (sh : List ℕ) (d : ℕ) (p A : List ℕ) : Prop where
  perm : p.Perm (List.range sh.length)
  shape : permuted p sh = A ++ [sh.getD d 0]
  last : ∀ i, i.length = sh.length → permuted p i = (permuted p i).dropLast ++ [i.getD d 0]
  back : p.idxOf d = sh.length - 1

theorem moved (sh : List ℕ) (d : ℕ) (hd : d < sh.length) :
    Moved sh d (swapLast (List.range sh.length) d) (swapLast sh d).dropLast := by
  have hp := swapLast_perm (List.range sh.length) d (by simpa using hd)
  refine ⟨hp, ?_, fun i hi => ?_, ?_⟩
  · rw [permuted_swapLast sh d hd]; exact swapLast_last sh d hd
  · rw [← hi, permuted_swapLast i d (by omega)]; exact swapLast_last i d (by omega)
  · obtain ⟨h1, h2, h3⟩ := perm_facts hp
    have := swapLast_last (List.range sh.length) d (by simpa using hd)
    have e : (List.range sh.length).getD d 0 = d := by simp [List.getD, hd]
    rw [e] at this
    rw [this]
    have hnm : d ∉ (swapLast (List.range sh.length) d).dropLast := by
      intro hm
      rw [this] at h2
      exact (List.disjoint_of_nodup_append h2) hm (by simp)
    rw [List.idxOf_append_of_notMem hnm]
    simp [h1]

theorem moved_set {sh : List ℕ} {d : ℕ} {p A : List ℕ} (h : Moved sh d p A) (hd : d < sh.length)
    (J : List ℕ) (hJ : J.length + 1 = sh.length) (b k : ℕ) :
    (placed p (J ++ [b])).set d k = placed p (J ++ [k]) := by
  obtain ⟨h1, h2, h3⟩ := perm_facts h.perm
  apply List.ext_getElem?
  intro a
  by_cases ha : a < sh.length
  · have hdp : d < (placed p (J ++ [b])).length := by simp [placed, h1, hd]
    have ha' : p.idxOf a < p.length := List.idxOf_lt_length_iff.2 ((h3 a).2 ha)
    rw [List.getElem?_set]
    by_cases e : d = a
    · subst e
      rw [if_pos rfl, if_pos hdp]
      have : p.idxOf d = J.length := by rw [h.back]; omega
      simp [placed, h1, hd, this]
    · rw [if_neg e]
      have hne : p.idxOf a ≠ sh.length - 1 := by
        intro h4
        apply e
        rw [← h.back] at h4
        exact ((List.idxOf_inj ((h3 a).2 ha)).1 h4).symm
      have hlt : p.idxOf a < J.length := by omega
      simp [placed, h1, ha, List.getD, List.getElem?_append_left hlt]
  · rw [List.getElem?_eq_none, List.getElem?_eq_none]
    · simp [placed, h1]; omega
    · simp [placed, h1]; omega

theorem placed_permuted {p i : List ℕ} {n : ℕ} (h : p.Perm (List.range n)) (hi : i.length = n) :
    placed p (permuted p i) = i := by
  obtain ⟨h1, h2, h3⟩ := perm_facts h
  exact unperm_permuted (fun a ha => (h3 a).2 (by omega)) (by omega)

theorem permuted_placed {p i : List ℕ} {n : ℕ} (h : p.Perm (List.range n)) (hi : i.length = n) :
    permuted p (placed p i) = i := by
  obtain ⟨h1, h2, h3⟩ := perm_facts h
  exact permuted_unperm h2 (fun a ha => by rw [h1]; exact (h3 a).1 ha) (by omega)

theorem size_perm {l l' : List ℕ} (h : l.Perm l') : size l = size l' := by
  induction h with
  | nil => rfl
  | cons a _ ih => simp [size, ih]
  | swap a b l => simp only [size]; ring
  | trans _ _ ih1 ih2 => exact ih1.trans ih2

theorem InB_snoc {J A : List ℕ} {k W : ℕ} (h : InB (J ++ [k]) (A ++ [W])) : InB J A ∧ k < W := by
  obtain ⟨h1, h2⟩ := InB_iff.1 h
  simp only [List.length_append, List.length_singleton] at h1 h2
  refine ⟨InB_iff.2 ⟨by omega, fun a ha => ?_⟩, ?_⟩
  · have := h2 a (by omega)
    simpa [List.getD, List.getElem?_append_left ha, List.getElem?_append_left (show a < J.length by omega)]
      using this
  · have := h2 A.length (by omega)
    have e : A.length = J.length := by omega
    simpa [List.getD, e, List.getElem?_append_right] using this

/-! ## rows of the two-dimensional view -/

theorem toVec_get {t : Ten α} {W : ℕ} (h : t.shape = [W]) :
    toVec t = (List.range W).map fun k => t.get [k] := by
  simp [toVec, h]

theorem rowVec_ok {x : Ten α} {N W i : ℕ} (hx : x.shape = [N, W]) (hi : i < N) :
    rowVec x i W = some ((List.range W).map fun k => x.get [i, k]) := by
  obtain ⟨s, h1, h2, h3⟩ := slice_row (x := x) (n := N) (k := i) (ds := [W]) hx hi
  obtain ⟨r, r1⟩ := reshape_isSome (t := s) (sh := [W]) (by simp [h2, size])
  obtain ⟨r2, r3⟩ := reshape_spec r1
  unfold rowVec
  have h1' : x.slice [i, 0] [i + 1, W] [1, 1] = some s := by simpa using h1
  rw [h1']
  simp only [Option.bind_eq_bind, Option.bind_some]
  rw [r1]
  simp only [Option.bind_some]
  rw [toVec_get r2]
  congr 1
  apply List.map_congr_left
  intro k hk
  have hk := List.mem_range.1 hk
  rw [r3 [k] [0, k] (InB_single hk) (by rw [h2]; exact .cons (by omega) (InB_single hk))
    (by simp [h2, pos, size])]
  exact h3 [k] (InB_single hk)

end Spu.Lemmas.SortDim

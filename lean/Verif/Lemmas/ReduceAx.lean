import Verif.Lemmas.Window
import Mathlib.Data.List.Perm.Basic

set_option autoImplicit false

/-! # Lemmas about `Reduce`: kept and reduced axes -/

namespace Spu.Lemmas.T
open Spu.Spec Spu.Model Spu.Lemmas Spu.Props Spu.Model.RW

variable {α : Type}

theorem InB_iff {i sh : List ℕ} : InB i sh ↔ i.length = sh.length ∧ ∀ a, a < sh.length → i.getD a 0 < sh.getD a 0 := by
  induction sh generalizing i with
  | nil =>
    constructor
    · intro h; cases h; simp
    · rintro ⟨h, _⟩
      have : i = [] := by simpa using h
      subst this; exact .nil
  | cons d ds ih =>
    constructor
    · intro h
      cases h with
      | cons hi his =>
        obtain ⟨h1, h2⟩ := ih.1 his
        refine ⟨by simp [h1], fun a ha => ?_⟩
        cases a with
        | zero => simpa using hi
        | succ a => simpa using h2 a (by simpa using ha)
    · rintro ⟨h1, h2⟩
      cases i with
      | nil => simp at h1
      | cons k ks =>
        refine .cons (by simpa using h2 0 (by simp)) (ih.2 ⟨by simpa using h1, fun a ha => ?_⟩)
        simpa using h2 (a + 1) (by simpa using ha)

theorem axes_perm (dims : List ℕ) (rank : ℕ) : (keptAxes dims rank ++ redAxes dims rank).length = rank ∧
    (keptAxes dims rank ++ redAxes dims rank).Nodup ∧ ∀ a, a ∈ keptAxes dims rank ++ redAxes dims rank ↔ a < rank := by
  have hm : ∀ a, a ∈ keptAxes dims rank ++ redAxes dims rank ↔ a < rank := by
    intro a
    simp only [keptAxes, redAxes, List.mem_append, List.mem_filter, List.mem_range, decide_eq_true_eq]
    tauto
  have hn : (keptAxes dims rank ++ redAxes dims rank).Nodup := by
    apply List.Nodup.append (List.nodup_range.filter _) (List.nodup_range.filter _)
    intro a h1 h2
    simp only [keptAxes, redAxes, List.mem_filter, decide_eq_true_eq] at h1 h2
    exact h1.2 h2.2
  refine ⟨?_, hn, hm⟩
  have : (keptAxes dims rank ++ redAxes dims rank).Perm (List.range rank) :=
    (List.perm_ext_iff_of_nodup hn List.nodup_range).2 fun a => by rw [hm, List.mem_range]
  rw [this.length_eq, List.length_range]

/-- the source index of a transposition -/
def unperm (perm : List ℕ) (i : List ℕ) : List ℕ := (List.range perm.length).map fun a => i.getD (perm.idxOf a) 0

theorem permuted_append (p q i : List ℕ) : permuted (p ++ q) i = permuted p i ++ permuted q i := by simp [permuted]

theorem permuted_unperm {perm i : List ℕ} (hn : perm.Nodup) (hm : ∀ a ∈ perm, a < perm.length) (hi : i.length = perm.length) :
    permuted perm (unperm perm i) = i := by
  apply List.ext_getElem
  · simp [permuted, hi]
  · intro k h1 h2
    have hk : k < perm.length := by omega
    simp only [permuted, unperm, List.getElem_map]
    have ha := hm perm[k] (List.getElem_mem hk)
    rw [List.getD_eq_getElem?_getD, List.getElem?_map, List.getElem?_range ha, Option.map_some, Option.getD_some,
      List.Nodup.idxOf_getElem hn k hk, List.getD_eq_getElem?_getD, List.getElem?_eq_getElem h2, Option.getD_some]

theorem unperm_permuted {perm i : List ℕ} (hm : ∀ a, a < perm.length → a ∈ perm) (hi : i.length = perm.length) :
    unperm perm (permuted perm i) = i := by
  apply List.ext_getElem
  · simp [unperm, hi]
  · intro k h1 h2
    have hk := List.idxOf_lt_length_iff.2 (hm k (by omega))
    simp only [unperm, List.getElem_map, List.getElem_range, permuted]
    rw [List.getD_eq_getElem?_getD, List.getElem?_map, List.getElem?_eq_getElem hk, Option.map_some, Option.getD_some,
      List.getElem_idxOf hk, List.getD_eq_getElem?_getD, List.getElem?_eq_getElem h2, Option.getD_some]

theorem InB_permuted {p i sh : List ℕ} (h : InB i sh) (hp : ∀ a ∈ p, a < sh.length) : InB (permuted p i) (permuted p sh) := by
  obtain ⟨_, h2⟩ := InB_iff.1 h
  induction p with
  | nil => exact .nil
  | cons a p ih => exact .cons (h2 a (hp a (by simp))) (ih fun b hb => hp b (by simp [hb]))

theorem InB_unperm {perm i sh : List ℕ} (hl : perm.length = sh.length) (hm : ∀ a, a < perm.length → a ∈ perm)
    (h : InB i (permuted perm sh)) : InB (unperm perm i) sh := by
  obtain ⟨h1, h2⟩ := InB_iff.1 h
  refine InB_iff.2 ⟨by simp [unperm, hl], fun a ha => ?_⟩
  have hk := List.idxOf_lt_length_iff.2 (hm a (by omega))
  have h3 := h2 (perm.idxOf a) (by simpa [permuted] using hk)
  have h4 : (permuted perm sh).getD (perm.idxOf a) 0 = sh.getD a 0 := by
    rw [permuted, List.getD_eq_getElem?_getD, List.getElem?_map, List.getElem?_eq_getElem hk, Option.map_some, Option.getD_some,
      List.getElem_idxOf hk]
  rw [h4] at h3
  rw [unperm, List.getD_eq_getElem?_getD, List.getElem?_map, List.getElem?_range (by omega), Option.map_some, Option.getD_some]
  exact h3

theorem rest_eq (dims i : List ℕ) : rest dims i = permuted (keptAxes dims i.length) i := rfl

/-- the line that `Reduce` forms at `q` is the fibre over `q`, in some order -/
theorem line_perm (dims sh q : List ℕ) (hq : InB q (permuted (keptAxes dims sh.length) sh)) :
    ((allIdx (permuted (redAxes dims sh.length) sh)).map fun u =>
      unperm (keptAxes dims sh.length ++ redAxes dims sh.length) (q ++ u)).Perm (fibre dims sh q) := by
  obtain ⟨a1, a2, a3⟩ := axes_perm dims sh.length
  generalize hK : keptAxes dims sh.length = K at *
  generalize hR : redAxes dims sh.length = R at *
  have hql : q.length = K.length := by rw [InB.length hq]; simp [permuted]
  have hul : ∀ u, InB u (permuted R sh) → (q ++ u).length = (K ++ R).length := by
    intro u hu
    rw [List.length_append, List.length_append, hql, InB.length hu]; simp [permuted]
  have hback : ∀ u, InB u (permuted R sh) → permuted (K ++ R) (unperm (K ++ R) (q ++ u)) = q ++ u :=
    fun u hu => permuted_unperm a2 (fun a ha => by rw [a1]; exact (a3 a).1 ha) (hul u hu)
  rw [List.perm_ext_iff_of_nodup]
  · intro i
    simp only [List.mem_map, mem_allIdx, fibre, List.mem_filter, decide_eq_true_eq]
    constructor
    · rintro ⟨u, hu, rfl⟩
      have hin : InB (unperm (K ++ R) (q ++ u)) sh := InB_unperm a1 (fun a ha => (a3 a).2 (by omega))
        (by rw [permuted_append]; exact InB_append hq hu)
      refine ⟨hin, ?_⟩
      rw [rest_eq, InB.length hin, hK]
      have := hback u hu
      rw [permuted_append] at this
      exact (List.append_inj this (by simp [permuted, hql])).1
    · rintro ⟨hi, hr⟩
      refine ⟨permuted R i, InB_permuted hi fun a ha => (a3 a).1 (by simp [ha]), ?_⟩
      rw [rest_eq, InB.length hi, hK] at hr
      rw [← hr, ← permuted_append]
      exact unperm_permuted (fun a ha => (a3 a).2 (by omega)) (by rw [InB.length hi, a1])
  · apply List.Nodup.map_on _ (nodup_allIdx _)
    intro u hu v hv e
    have h1 := hback u (mem_allIdx.1 hu)
    rw [e, hback v (mem_allIdx.1 hv)] at h1
    exact (List.append_cancel_left h1).symm
  · exact (nodup_allIdx _).filter _

theorem pos_filter (P : ℕ → Bool) (f o g : ℕ → ℕ) (L : List ℕ) (h0 : ∀ a ∈ L, P a = false → f a = 0 ∧ o a = 1)
    (h1 : ∀ a ∈ L, P a = true → o a = g a) : pos (L.map f) (L.map o) = pos ((L.filter P).map f) ((L.filter P).map g) ∧
      size (L.map o) = size ((L.filter P).map g) := by
  induction L with
  | nil => exact ⟨rfl, rfl⟩
  | cons a L ih =>
    obtain ⟨i1, i2⟩ := ih (fun b hb => h0 b (by simp [hb])) fun b hb => h1 b (by simp [hb])
    cases hP : P a with
    | false =>
      obtain ⟨e1, e2⟩ := h0 a (by simp) hP
      simp [List.filter_cons, hP, pos, size, i1, i2, e1, e2]
    | true =>
      have e := h1 a (by simp) hP
      simp [List.filter_cons, hP, pos, size, i1, i2, e]

theorem map_range_getD (i : List ℕ) : (List.range i.length).map (fun a => i.getD a 0) = i := by
  apply List.ext_getElem
  · simp
  · intro k h1 h2
    simp [h2]

theorem size_outShape (dims sh : List ℕ) : size (outShape dims sh) = size (permuted (keptAxes dims sh.length) sh) := by
  refine (pos_filter (fun a => decide (a ∉ dims)) (fun _ => 0) (fun a => if a ∈ dims then 1 else sh.getD a 0)
    (fun a => sh.getD a 0) (List.range sh.length) ?_ ?_).2
  · intro a _ h
    simp only [decide_eq_false_iff_not, not_not] at h
    simp [h]
  · intro a _ h
    simp only [decide_eq_true_eq] at h
    simp [h]

theorem outShape_length (dims sh : List ℕ) : (outShape dims sh).length = sh.length := by simp [outShape]

theorem outShape_getD (dims sh : List ℕ) {a : ℕ} (h : a < sh.length) :
    (outShape dims sh).getD a 0 = if a ∈ dims then 1 else sh.getD a 0 := by
  simp [outShape, List.getD_eq_getElem?_getD, h]

theorem rest_out {dims sh j : List ℕ} (h : InB j (outShape dims sh)) :
    InB (rest dims j) (permuted (keptAxes dims sh.length) sh) ∧
      pos j (outShape dims sh) = pos (rest dims j) (permuted (keptAxes dims sh.length) sh) := by
  obtain ⟨h1, h2⟩ := InB_iff.1 h
  rw [outShape_length] at h1 h2
  constructor
  · rw [rest_eq, h1]
    have : ∀ L : List ℕ, (∀ a ∈ L, a < sh.length ∧ a ∉ dims) → InB (permuted L j) (permuted L sh) := by
      intro L
      induction L with
      | nil => intro _; exact .nil
      | cons a L ih =>
        intro hL
        obtain ⟨l1, l2⟩ := hL a (by simp)
        have := h2 a l1
        rw [outShape_getD _ _ l1, if_neg l2] at this
        exact .cons this (ih fun b hb => hL b (by simp [hb]))
    apply this
    intro a ha
    simpa [keptAxes] using ha
  · conv_lhs => rw [← map_range_getD j, h1, outShape]
    rw [rest_eq, h1]
    refine (pos_filter (fun a => decide (a ∉ dims)) (fun a => j.getD a 0) (fun a => if a ∈ dims then 1 else sh.getD a 0)
      (fun a => sh.getD a 0) (List.range sh.length) ?_ ?_).1
    · intro a ha h
      simp only [decide_eq_false_iff_not, not_not] at h
      have h3 := h2 a (List.mem_range.1 ha)
      rw [outShape_getD _ _ (List.mem_range.1 ha), if_pos h] at h3
      refine ⟨by omega, by simp [h]⟩
    · intro a _ h
      simp only [decide_eq_true_eq] at h
      simp [h]

end Spu.Lemmas.T

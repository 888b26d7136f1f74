import Mathlib.Data.Fintype.Card
import Mathlib.Data.Fintype.EquivFin
import Mathlib.Order.Interval.Finset.Fin
import Mathlib.Algebra.BigOperators.Group.Finset.Basic
import Mathlib.Algebra.BigOperators.Fin

set_option autoImplicit false

/-!
# Segments of a sorted sequence

`K` is a sorted sequence, `Mk` marks the last position of every run of equal entries, and `π` moves the marked positions
to the front, keeping their order.
-/

namespace Spu.Lemmas.GroupBy

section
variable {N : ℕ} {κ : Type} [LinearOrder κ]

/-- the value of a permutation is the number of smaller values -/
theorem perm_card (π : Equiv.Perm (Fin N)) (p : Fin N) :
    (Finset.univ.filter fun q => π q < π p).card = (π p).val := by
  have : (Finset.univ.filter fun q => π q < π p) = (Finset.Iio (π p)).map π.symm.toEmbedding := by
    ext q; simp
  rw [this, Finset.card_map, Fin.card_Iio]

/-- hypotheses of this file -/
structure Runs (K : Fin N → κ) (Mk : Fin N → Prop) (π : Equiv.Perm (Fin N)) : Prop where
  mono : ∀ p q, p ≤ q → K p ≤ K q
  mark : ∀ p, Mk p ↔ ∀ q, p < q → K p < K q
  front : ∀ p q, π p < π q ↔ (Mk p ∧ ¬ Mk q) ∨ ((Mk p ↔ Mk q) ∧ p < q)

variable {K : Fin N → κ} {Mk : Fin N → Prop} {π : Equiv.Perm (Fin N)} [DecidablePred Mk]

theorem Runs.lt_iff (h : Runs K Mk π) (p : Fin N) :
    (π p).val < (Finset.univ.filter Mk).card ↔ Mk p := by
  rw [← perm_card π p]
  constructor
  · intro hlt
    by_contra hn
    refine absurd hlt (not_lt.2 (Finset.card_le_card fun q hq => ?_))
    simp only [Finset.mem_filter, Finset.mem_univ, true_and] at hq ⊢
    exact (h.front q p).2 (.inl ⟨hq, hn⟩)
  · intro hp
    refine Finset.card_lt_card ⟨fun q hq => ?_, fun hs => ?_⟩
    · simp only [Finset.mem_filter, Finset.mem_univ, true_and] at hq ⊢
      rcases (h.front q p).1 hq with a | a
      · exact a.1
      · exact a.1.2 hp
    · have := hs (show p ∈ Finset.univ.filter Mk by simpa using hp)
      simp at this

theorem Runs.marked (h : Runs K Mk π) {g : Fin N} (hg : g.val < (Finset.univ.filter Mk).card) : Mk (π.symm g) := by
  rw [← h.lt_iff]; simpa using hg

/-- the run of every position has a marked last position -/
theorem Runs.last (h : Runs K Mk π) (p : Fin N) : ∃ q, p ≤ q ∧ K q = K p ∧ Mk q := by
  have hne : (Finset.univ.filter fun q => p ≤ q ∧ K q = K p).Nonempty := ⟨p, by simp⟩
  obtain ⟨q, hq, hmax⟩ := Finset.exists_max_image _ (fun q => q) hne
  simp only [Finset.mem_filter, Finset.mem_univ, true_and] at hq hmax
  refine ⟨q, hq.1, hq.2, (h.mark q).2 fun r hr => lt_of_le_of_ne (h.mono q r hr.le) fun e => ?_⟩
  exact absurd (hmax r ⟨hq.1.trans hr.le, by rw [← e, hq.2]⟩) (not_le.2 hr)

theorem Runs.mono_slots (h : Runs K Mk π) {g g' : Fin N} (hlt : g < g') (hg : g'.val < (Finset.univ.filter Mk).card) :
    π.symm g < π.symm g' := by
  have h1 := h.marked (g := g) (lt_trans hlt hg)
  have h2 := h.marked hg
  have := (h.front (π.symm g) (π.symm g')).1 (by simpa using hlt)
  rcases this with a | a
  · exact absurd h2 a.2
  · exact a.2

theorem Runs.increasing (h : Runs K Mk π) {g g' : Fin N} (hlt : g < g') (hg : g'.val < (Finset.univ.filter Mk).card) :
    K (π.symm g) < K (π.symm g') :=
  (h.mark _).1 (h.marked (lt_trans hlt hg)) _ (h.mono_slots hlt hg)

theorem Runs.complete (h : Runs K Mk π) (p : Fin N) :
    ∃ g : Fin N, g.val < (Finset.univ.filter Mk).card ∧ K (π.symm g) = K p := by
  obtain ⟨q, _, h2, h3⟩ := h.last p
  exact ⟨π q, (h.lt_iff q).2 h3, by simpa using h2⟩

theorem Runs.count (h : Runs K Mk π) : (Finset.univ.filter Mk).card = (Finset.univ.image K).card := by
  have : Finset.univ.image K = (Finset.univ.filter Mk).image K := by
    ext k
    simp only [Finset.mem_image, Finset.mem_univ, true_and, Finset.mem_filter]
    constructor
    · rintro ⟨p, rfl⟩
      obtain ⟨q, _, h2, h3⟩ := h.last p
      exact ⟨q, h3, h2⟩
    · rintro ⟨p, _, rfl⟩
      exact ⟨p, rfl⟩
  rw [this, Finset.card_image_of_injOn]
  intro p hp q hq e
  simp only [Finset.coe_filter, Finset.mem_univ, true_and, Set.mem_setOf_eq] at hp hq
  rcases lt_trichotomy p q with hlt | rfl | hlt
  · exact absurd e ((h.mark p).1 hp q hlt).ne
  · rfl
  · exact absurd e ((h.mark q).1 hq p hlt).ne'

/-- differences of prefix sums at consecutive marked positions are the sums of the runs -/
theorem Runs.segment {A : Type} [AddCommGroup A] (h : Runs K Mk π) (x : Fin N → A) {g : Fin N}
    (hg : g.val < (Finset.univ.filter Mk).card) :
    (∑ q ∈ Finset.univ.filter (· ≤ π.symm g), x q) -
        (if h0 : g.val = 0 then 0 else ∑ q ∈ Finset.univ.filter (· ≤ π.symm ⟨g.val - 1, by omega⟩), x q) =
      ∑ q ∈ Finset.univ.filter (fun q => K q = K (π.symm g)), x q := by
  have hm := h.marked hg
  have hle : ∀ q, K q = K (π.symm g) → q ≤ π.symm g := by
    intro q hq
    by_contra hn
    exact absurd hq ((h.mark _).1 hm q (not_le.1 hn)).ne'
  split
  · rename_i h0
    rw [sub_zero]
    refine Finset.sum_congr ?_ fun _ _ => rfl
    ext q
    simp only [Finset.mem_filter, Finset.mem_univ, true_and]
    refine ⟨fun hq => ?_, hle q⟩
    rcases (h.mono _ _ hq).eq_or_lt with e | hlt
    · exact e
    obtain ⟨r, h1, h2, h3⟩ := h.last q
    have hr : r < π.symm g := by
      by_contra hn
      exact absurd (h.mono _ _ (not_lt.1 hn)) (by rw [h2]; exact not_le.2 hlt)
    have := (h.front r (π.symm g)).2 (.inr ⟨iff_of_true h3 hm, hr⟩)
    rw [Equiv.apply_symm_apply, Fin.lt_def] at this
    omega
  · rename_i h0
    set g' : Fin N := ⟨g.val - 1, by omega⟩ with hg'
    have hlt : g' < g := by rw [Fin.lt_def]; simp [hg']; omega
    have hm' := h.marked (g := g') (lt_trans hlt hg)
    have hpos := h.mono_slots hlt hg
    rw [sub_eq_iff_eq_add, ← Finset.sum_union]
    · refine Finset.sum_congr ?_ fun _ _ => rfl
      ext q
      simp only [Finset.mem_filter, Finset.mem_univ, true_and, Finset.mem_union]
      constructor
      · intro hq
        rcases (h.mono _ _ hq).eq_or_lt with e | hlt'
        · exact .inl e
        right
        obtain ⟨r, h1, h2, h3⟩ := h.last q
        have hr : r < π.symm g := by
          by_contra hn
          exact absurd (h.mono _ _ (not_lt.1 hn)) (by rw [h2]; exact not_le.2 hlt')
        have hr1 := (h.front r (π.symm g)).2 (.inr ⟨iff_of_true h3 hm, hr⟩)
        rw [Equiv.apply_symm_apply, Fin.lt_def] at hr1
        by_contra hn
        have hr2 := (h.front (π.symm g') r).2 (.inr ⟨iff_of_true hm' h3, lt_of_lt_of_le (not_le.1 hn) h1⟩)
        rw [Equiv.apply_symm_apply, Fin.lt_def] at hr2
        simp only [hg'] at hr2
        omega
      · rintro (hq | hq)
        · exact hle q hq
        · exact hq.trans hpos.le
    · rw [Finset.disjoint_left]
      intro q hq hq'
      simp only [Finset.mem_filter, Finset.mem_univ, true_and] at hq hq'
      have := h.mono _ _ hq'
      rw [hq] at this
      exact absurd ((h.mark _).1 hm' _ hpos) (not_lt.2 this)

end
end Spu.Lemmas.GroupBy

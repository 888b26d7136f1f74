import Verif.Model.Gather
import Verif.Lemmas.DynSlice
import Mathlib.Tactic.SplitIfs

set_option autoImplicit false

/-! # Lemmas about gather -/

namespace Spu.Lemmas.T
open Spu.Spec Spu.Model Spu.Lemmas Spu.Props Spu.Model.Gat

variable {α : Type}

theorem getD_mapRange {β : Type} {n d : ℕ} (f : ℕ → β) (z : β) (h : d < n) : ((List.range n).map f).getD d z = f d := by
  rw [List.getD_eq_getElem?_getD, List.getElem?_map, List.getElem?_range h]; rfl

theorem getD_zipAdd {b w : List ℕ} (hl : b.length = w.length) (d : ℕ) :
    (List.zipWith (· + ·) b w).getD d 0 = b.getD d 0 + w.getD d 0 := by
  by_cases h : d < b.length
  · simp [List.getD_eq_getElem?_getD, List.getElem?_zipWith, List.getElem?_eq_getElem h, List.getElem?_eq_getElem (hl ▸ h)]
  · simp [List.getD_eq_getElem?_getD, List.getElem?_zipWith, List.getElem?_eq_none (show b.length ≤ d by omega),
      List.getElem?_eq_none (show w.length ≤ d by omega)]

/-! ## A loop that writes -/

theorem foldlM_cover {β ι : Type} [DecidableEq ι] (step : (ι → α) → β → Option (ι → α)) (cov : β → ι → Prop) (val : ι → α)
    (l : List β) (h : ∀ x ∈ l, ∀ r, ∃ r', step r x = some r' ∧ (∀ o, cov x o → r' o = val o) ∧ ∀ o, ¬ cov x o → r' o = r o)
    (r : ι → α) : ∃ r', l.foldlM step r = some r' ∧ (∀ o, (∃ x ∈ l, cov x o) → r' o = val o) ∧
      ∀ o, (¬ ∃ x ∈ l, cov x o) → r' o = r o := by
  induction l generalizing r with
  | nil => exact ⟨r, rfl, by simp, by simp⟩
  | cons x xs ih =>
    obtain ⟨r1, a1, a2, a3⟩ := h x (by simp) r
    obtain ⟨r2, b1, b2, b3⟩ := ih (fun y hy => h y (by simp [hy])) r1
    refine ⟨r2, by rw [List.foldlM_cons, a1]; exact b1, ?_, ?_⟩
    · intro o ho
      by_cases hx : ∃ y ∈ xs, cov y o
      · exact b2 o hx
      · rw [b3 o hx]
        obtain ⟨y, hy, hc⟩ := ho
        rcases List.mem_cons.1 hy with rfl | hy
        · exact a2 o hc
        · exact absurd ⟨y, hy, hc⟩ hx
    · intro o ho
      rw [b3 o (fun ⟨y, hy, hc⟩ => ho ⟨y, by simp [hy], hc⟩), a3 o (fun hc => ho ⟨x, by simp, hc⟩)]

/-! ## Inserting a coordinate -/

theorem InB_insertIdx {b sh : List ℕ} {p k : ℕ} (hp : p < sh.length) (h : InB b (sh.eraseIdx p)) (hk : k < sh.getD p 0) :
    InB (b.insertIdx p k) sh := by
  induction sh generalizing b p with
  | nil => simp at hp
  | cons d ds ih =>
    cases p with
    | zero =>
      simp only [List.eraseIdx_cons_zero] at h
      simp only [List.insertIdx_zero]
      exact .cons (by simpa using hk) h
    | succ p =>
      simp only [List.eraseIdx_cons_succ] at h
      cases h with
      | cons h1 h2 =>
        simp only [List.insertIdx_succ_cons]
        exact .cons h1 (ih (by simpa using hp) h2 (by simpa using hk))

/-! ## The index vector -/

/-- where batch coordinate `t` goes -/
def rawAt (ivd t : ℕ) : ℕ := if t < ivd then t else t + 1

theorem propagate_spec (g : GatherDims) (o : Index) (is : List ℕ) : ∀ (t : ℕ) (buf : List ℕ),
    t + (is.filter fun i => decide (i ∉ g.offsetDims)).length + 1 ≤ buf.length → g.ivd < buf.length →
    ∃ buf', propagate g o is (if t ≤ g.ivd then t else t + 1) buf = some buf' ∧ buf'.length = buf.length ∧
      (∀ j, j < (is.filter fun i => decide (i ∉ g.offsetDims)).length →
        buf'.getD (rawAt g.ivd (t + j)) 0 = o.getD ((is.filter fun i => decide (i ∉ g.offsetDims)).getD j 0) 0) ∧
      (∀ p, p < rawAt g.ivd t → p ≠ g.ivd → buf'.getD p 0 = buf.getD p 0) := by
  induction is with
  | nil => intro t buf _ _; exact ⟨buf, rfl, rfl, by simp, fun _ _ _ => rfl⟩
  | cons i is ih =>
    intro t buf hl hv
    by_cases hi : i ∈ g.offsetDims
    · simp only [List.filter_cons, hi, not_true, decide_false, Bool.false_eq_true, if_false] at hl ⊢
      simp only [propagate, hi, if_true]
      exact ih t buf hl hv
    · simp only [List.filter_cons, hi, not_false_eq_true, decide_true, if_true, List.length_cons] at hl ⊢
      simp only [propagate, hi, if_false]
      have hk : (if (if t ≤ g.ivd then t else t + 1) = g.ivd then (if t ≤ g.ivd then t else t + 1) + 1
          else (if t ≤ g.ivd then t else t + 1)) = rawAt g.ivd t := by
        unfold rawAt
        split_ifs <;> omega
      rw [hk]
      have hlt : rawAt g.ivd t < buf.length := by unfold rawAt; split_ifs <;> omega
      rw [if_pos hlt]
      have hk' : rawAt g.ivd t + 1 = if t + 1 ≤ g.ivd then t + 1 else t + 1 + 1 := by
        unfold rawAt; split_ifs <;> omega
      rw [hk']
      obtain ⟨buf', b1, b2, b3, b4⟩ := ih (t + 1) (buf.set (rawAt g.ivd t) (o.getD i 0)) (by rw [List.length_set]; omega) (by simpa using hv)
      refine ⟨buf', b1, by simpa using b2, fun j hj => ?_, fun p hp hp' => ?_⟩
      · cases j with
        | zero =>
          simp only [Nat.add_zero, List.getD_cons_zero]
          rw [b4 (rawAt g.ivd t) (by unfold rawAt; split_ifs <;> omega) (by unfold rawAt; split_ifs <;> omega)]
          simp [List.getD_eq_getElem?_getD, hlt]
        | succ j =>
          rw [show t + (j + 1) = t + 1 + j by omega, b3 j (by omega)]
          simp
      · rw [b4 p (by unfold rawAt at hp ⊢; split_ifs at hp ⊢ <;> omega) hp']
        simp only [List.getD_eq_getElem?_getD, List.getElem?_set]
        rw [if_neg (by omega)]

theorem set_eq_insert {buf b : List ℕ} {ivd k : ℕ} (hl : buf.length = b.length + 1) (hv : ivd ≤ b.length)
    (h : ∀ j, j < b.length → buf.getD (rawAt ivd j) 0 = b.getD j 0) : buf.set ivd k = b.insertIdx ivd k := by
  apply List.ext_getElem
  · rw [List.length_set, List.length_insertIdx_of_le_length hv, hl]
  · intro p h1 h2
    rw [List.length_set] at h1
    have hget : ∀ q (hq : q < buf.length), buf[q] = buf.getD q 0 := fun q hq => by
      rw [List.getD_eq_getElem?_getD, List.getElem?_eq_getElem hq]; rfl
    have hgb : ∀ q (hq : q < b.length), b[q] = b.getD q 0 := fun q hq => by
      rw [List.getD_eq_getElem?_getD, List.getElem?_eq_getElem hq]; rfl
    rcases Nat.lt_trichotomy p ivd with hp | hp | hp
    · rw [List.getElem_set_ne (by omega), List.getElem_insertIdx_of_lt hp, hget, hgb, ← h p (by omega)]
      congr 1; simp [rawAt, hp]
    · subst hp
      rw [List.getElem_set_self, List.getElem_insertIdx_self]
    · rw [List.getElem_set_ne (by omega), List.getElem_insertIdx_of_gt hp, hget, hgb, ← h (p - 1) (by omega)]
      congr 1; simp only [rawAt]; split_ifs <;> omega

/-! ## The window -/

theorem skip_spec (c : List ℕ) : ∀ (n s f a : ℕ) (t : List ℕ), n ≤ f →
    ((List.range' s n).filter fun d => decide (d ∉ c)) = a :: t →
    skipCollapsed c f s = a ∧ s ≤ a ∧ a < s + n ∧ ((List.range' (a + 1) (s + n - (a + 1))).filter fun d => decide (d ∉ c)) = t := by
  intro n
  induction n with
  | zero => intro s f a t _ h; simp at h
  | succ n ih =>
    intro s f a t hf h
    rw [List.range'_succ, List.filter_cons] at h
    obtain ⟨f, rfl⟩ : ∃ f', f = f' + 1 := ⟨f - 1, by omega⟩
    by_cases hs : s ∈ c
    · simp only [hs, not_true, decide_false, Bool.false_eq_true, if_false] at h
      obtain ⟨i1, i2, i3, i4⟩ := ih (s + 1) f a t (by omega) h
      refine ⟨by simp only [skipCollapsed, hs, if_true, i1], by omega, by omega, ?_⟩
      rwa [show s + (n + 1) - (a + 1) = s + 1 + n - (a + 1) by omega]
    · simp only [hs, not_false_eq_true, decide_true, if_true, List.cons.injEq] at h
      obtain ⟨rfl, rfl⟩ := h
      refine ⟨by simp only [skipCollapsed, hs, if_false], le_rfl, by omega, ?_⟩
      rw [show s + (n + 1) - (s + 1) = n by omega]

/-- one value for every offset dimension, 1 elsewhere -/
def assign (off : List ℕ) : List ℕ → List ℕ → List ℕ
  | [], _ => []
  | i :: is, vs => if i ∈ off then vs.headD 0 :: assign off is vs.tail else 1 :: assign off is vs

theorem offsetCounts_eq (g : GatherDims) (is : List ℕ) : ∀ s n, s + n ≤ g.sizes.length →
    (is.filter fun i => decide (i ∈ g.offsetDims)).length ≤ ((List.range' s n).filter fun d => decide (d ∉ g.collapsed)).length →
    offsetCounts g is s = assign g.offsetDims is
      (((List.range' s n).filter fun d => decide (d ∉ g.collapsed)).map fun d => g.sizes.getD d 0) := by
  induction is with
  | nil => intros; rfl
  | cons i is ih =>
    intro s n hn hl
    by_cases hi : i ∈ g.offsetDims
    · simp only [List.filter_cons, hi, decide_true, if_true, List.length_cons] at hl
      simp only [offsetCounts, assign, hi, if_true]
      rcases hk : (List.range' s n).filter (fun d => decide (d ∉ g.collapsed)) with _ | ⟨a, t⟩
      · rw [hk] at hl; simp at hl
      · obtain ⟨h1, h2, h3, h4⟩ := skip_spec g.collapsed n s g.sizes.length a t (by omega) hk
        rw [h1]
        rw [hk] at hl
        simp only [List.map_cons, List.headD_cons, List.tail_cons]
        rw [ih (a + 1) (s + n - (a + 1)) (by omega) (by rw [h4]; simpa using hl), h4]
    · simp only [List.filter_cons, hi, decide_false, Bool.false_eq_true, if_false] at hl
      simp only [offsetCounts, assign, hi, if_false]
      rw [ih s n hn hl]

theorem assign_eq (off out : List ℕ) (is : List ℕ) :
    (is.map fun i => if i ∈ off then out.getD i 0 else 1) =
      assign off is ((is.filter fun i => decide (i ∈ off)).map fun i => out.getD i 0) := by
  induction is with
  | nil => rfl
  | cons i is ih =>
    by_cases hi : i ∈ off
    · simp only [List.map_cons, List.filter_cons, assign, hi, if_true, decide_true, ih, List.headD_cons, List.tail_cons]
    · simp only [List.map_cons, List.filter_cons, assign, hi, if_false, decide_false, Bool.false_eq_true, ih]

theorem filter_mem_range {off : List ℕ} {n : ℕ} (hs : off.Pairwise (· < ·)) (hl : ∀ a ∈ off, a < n) :
    ((List.range n).filter fun i => decide (i ∈ off)) = off := by
  refine List.Perm.eq_of_pairwise (le := fun a b => a < b) (by intro a b _ _ h h'; omega) ?_ hs ?_
  · exact List.Pairwise.filter _ List.pairwise_lt_range
  · rw [List.perm_ext_iff_of_nodup (List.Nodup.filter _ List.nodup_range) (hs.imp (fun h => Nat.ne_of_lt h))]
    intro a
    simp only [List.mem_filter, List.mem_range, decide_eq_true_eq]
    exact ⟨fun h => h.2, fun h => ⟨hl a h, h⟩⟩

theorem dimToOutput_spec (g : GatherDims) (w : List ℕ) : ∀ (ds : List ℕ) (c : ℕ), ds.Nodup →
    c + (ds.filter fun d => decide (d ∉ g.collapsed)).length ≤ w.length →
    ∃ l, dimToOutput g w ds c = some l ∧ l = ds.map fun d => if d ∈ g.collapsed then none else
      some (w.getD (c + (ds.filter fun d => decide (d ∉ g.collapsed)).idxOf d) 0) := by
  intro ds
  induction ds with
  | nil => intro c _ _; exact ⟨[], rfl, rfl⟩
  | cons d ds ih =>
    intro c hn hl
    by_cases hd : d ∈ g.collapsed
    · simp only [List.filter_cons, hd, not_true, decide_false, Bool.false_eq_true, if_false] at hl ⊢
      obtain ⟨l, h1, h2⟩ := ih c (List.nodup_cons.1 hn).2 hl
      refine ⟨none :: l, by simp only [dimToOutput, hd, if_true, h1, Option.map_some], ?_⟩
      rw [h2]
      simp [hd]
    · simp only [List.filter_cons, hd, not_false_eq_true, decide_true, if_true, List.length_cons] at hl ⊢
      obtain ⟨l, h1, h2⟩ := ih (c + 1) (List.nodup_cons.1 hn).2 (by omega)
      refine ⟨some (w.getD c 0) :: l, ?_, ?_⟩
      · simp only [dimToOutput, hd, if_false]
        rw [if_pos (by omega), h1]; rfl
      · rw [h2]
        simp only [List.map_cons, hd, if_false, List.idxOf_cons_self, Nat.add_zero]
        congr 1
        apply List.map_congr_left
        intro e he
        have hne : d ≠ e := fun h => (List.nodup_cons.1 hn).1 (h ▸ he)
        by_cases hc : e ∈ g.collapsed
        · simp [hc]
        · simp only [hc, if_false]
          rw [List.idxOf_cons_ne _ hne]
          congr 2; omega

end Spu.Lemmas.T

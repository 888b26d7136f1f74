import Verif.Lemmas.Ten

set_option autoImplicit false

/-! # Lemmas about windows and reductions along an axis -/

namespace Spu.Lemmas.T
open Spu.Spec Spu.Model Spu.Lemmas Spu.Props Spu.Model.RW

variable {α β : Type}

theorem Windows.lengths {B W S D N : List ℕ} (h : Windows B W S D N) :
    B.length = N.length ∧ W.length = N.length ∧ S.length = N.length ∧ D.length = N.length := by
  induction h with
  | nil => simp
  | cons _ _ _ _ _ _ _ ih => simpa using ih

theorem Windows.pos {B W S D N : List ℕ} (h : Windows B W S D N) : 0 < size N ∧ 0 < size W := by
  induction h with
  | nil => simp [size]
  | cons h1 _ _ h2 _ _ _ ih => exact ⟨Nat.mul_pos h2 ih.1, Nat.mul_pos h1 ih.2⟩

theorem numWin_eq {B W S D N : List ℕ} (h : Windows B W S D N) (hD : D.all (· = 1) = true) : numWin B W S = some N := by
  induction h with
  | nil => rfl
  | @cons b w s d n B W S D N h1 h2 h3 h4 h5 h6 _ ih =>
    simp only [List.all_cons, Bool.and_eq_true, decide_eq_true_eq] at hD
    obtain ⟨rfl, hD⟩ := hD
    obtain ⟨m, rfl⟩ : ∃ m, n = m + 1 := ⟨n - 1, by omega⟩
    simp only [Nat.add_sub_cancel, Nat.mul_one] at h5 h6
    have hb : w ≤ b := by omega
    have : (b - w) / s = m := by
      apply Nat.div_eq_of_lt_le
      · omega
      · omega
    simp only [numWin, ih hD, Option.bind_eq_bind, Option.bind_some]
    rw [if_neg (by omega), this]

theorem win_facts {B W S D N : List ℕ} (h : Windows B W S D N) {n : List ℕ} (hn : InB n N) :
    Ten.fits (winEnd (List.zipWith (· * ·) n S) W D) B = true ∧
    sliceShape (List.zipWith (· * ·) n S) (winEnd (List.zipWith (· * ·) n S) W D) D = W ∧
    (∀ w, InB w W → affine (List.zipWith (· * ·) n S) D w = winAt S D n w ∧ InB (winAt S D n w) B) ∧
    0 ∉ D ∧ (List.zipWith (· * ·) n S).length = B.length ∧ D.length = B.length := by
  induction h generalizing n with
  | nil =>
    cases hn
    refine ⟨rfl, rfl, ?_, by simp, rfl, rfl⟩
    intro w hw
    cases hw
    exact ⟨rfl, .nil⟩
  | @cons b w s d m B W S D N h1 h2 h3 h4 h5 h6 _ ih =>
    cases hn with
    | @cons k _ ks _ hk hks =>
      obtain ⟨i1, i2, i3, i4, i5, i6⟩ := ih hks
      have hle : k * s ≤ (m - 1) * s := Nat.mul_le_mul_right _ (by omega)
      have hw : w + (w - 1) * (d - 1) = (w - 1) * d + 1 := by
        obtain ⟨w', rfl⟩ : ∃ w', w = w' + 1 := ⟨w - 1, by omega⟩
        obtain ⟨d', rfl⟩ : ∃ d', d = d' + 1 := ⟨d - 1, by omega⟩
        simp only [Nat.add_sub_cancel]; ring
      refine ⟨?_, ?_, ?_, ?_, ?_, ?_⟩
      · simp only [List.zipWith_cons_cons, winEnd, Ten.fits, Bool.and_eq_true, decide_eq_true_eq]
        exact ⟨by omega, i1⟩
      · simp only [List.zipWith_cons_cons, winEnd, sliceShape, i2, List.cons.injEq, and_true]
        have : k * s + w + (w - 1) * (d - 1) - k * s + (d - 1) = (d * w : ℕ) := by
          have : k * s + w + (w - 1) * (d - 1) - k * s = (w - 1) * d + 1 := by omega
          rw [this]
          obtain ⟨w', rfl⟩ : ∃ w', w = w' + 1 := ⟨w - 1, by omega⟩
          obtain ⟨d', rfl⟩ : ∃ d', d = d' + 1 := ⟨d - 1, by omega⟩
          simp only [Nat.add_sub_cancel]; ring
        rw [this, Nat.mul_div_cancel_left _ h3]
      · intro w' hw'
        cases hw' with
        | @cons j _ js _ hj hjs =>
          obtain ⟨a1, a2⟩ := i3 _ hjs
          refine ⟨by simp only [List.zipWith_cons_cons, affine, winAt, a1], .cons ?_ a2⟩
          have : j * d ≤ (w - 1) * d := Nat.mul_le_mul_right _ (by omega)
          omega
      · simp only [List.mem_cons, not_or]; exact ⟨by omega, i4⟩
      · simp [i5]
      · simp [i6]

theorem slice_win {B W S D N : List ℕ} (h : Windows B W S D N) {n : List ℕ} (hn : InB n N) (t : Ten α) (ht : t.shape = B) :
    ∃ u, t.slice (List.zipWith (· * ·) n S) (winEnd (List.zipWith (· * ·) n S) W D) D = some u ∧ u.shape = W ∧
      ∀ w, InB w W → u.get w = t.get (winAt S D n w) := by
  obtain ⟨f1, f2, f3, f4, f5, f6⟩ := win_facts h hn
  unfold Ten.slice
  rw [ht, if_pos ⟨f1, f5, f6, f4⟩]
  refine ⟨_, rfl, f2, fun w hw => ?_⟩
  simp only [(f3 w hw).1]

theorem winEnd_ones (st W : List ℕ) (h : st.length = W.length) :
    winEnd st W (List.replicate W.length 1) = List.zipWith (· + ·) st W := by
  induction st generalizing W with
  | nil => cases W <;> rfl
  | cons b bs ih =>
    cases W with
    | nil => simp at h
    | cons w ws =>
      simp only [List.length_cons, List.replicate_succ, winEnd, List.zipWith_cons_cons]
      rw [ih ws (by simpa using h)]
      simp

theorem ones_of_all {D : List ℕ} (h : D.all (· = 1) = true) : D = List.replicate D.length 1 := by
  rw [List.eq_replicate_iff]
  exact ⟨rfl, by simpa using h⟩

/-- the expanded windows -/
theorem expand_spec {B W S D N : List ℕ} (h : Windows B W S D N) (hD : D.all (· = 1) = true) (t : Ten α) (ht : t.shape = B) :
    ∃ e, expandWindow t W S = some e ∧ e.shape = N ++ W ∧
      ∀ n w, InB n N → InB w W → e.get (n ++ w) = t.get (winAt S D n w) := by
  obtain ⟨l1, l2, l3, l4⟩ := Windows.lengths h
  obtain ⟨p1, p2⟩ := Windows.pos h
  have hDW : D = List.replicate W.length 1 := by rw [ones_of_all hD, l4, l2]
  have hu : ∀ n, InB n N → ∃ u, (do
      let st := List.zipWith (· * ·) n S
      let w ← t.slice st (List.zipWith (· + ·) st W) (List.replicate W.length 1)
      return w.unsqueeze : Option (Ten α)) = some u ∧ u.shape = 1 :: W ∧
        ∀ w, InB w W → u.get (0 :: w) = t.get (winAt S D n w) := by
    intro n hn
    obtain ⟨u, u1, u2, u3⟩ := slice_win h hn t ht
    have hl : (List.zipWith (· * ·) n S).length = W.length := by
      have := InB.length hn
      simp only [List.length_zipWith]; omega
    rw [hDW, winEnd_ones _ _ hl] at u1
    refine ⟨u.unsqueeze, ?_, by simp [Ten.unsqueeze, u2], fun w hw => by simp [Ten.unsqueeze, u3 w hw]⟩
    simp only [u1, Option.bind_eq_bind, Option.bind_some, Option.pure_def]
  classical
  let g : List ℕ → Ten α := fun n => if hn : InB n N then (hu n hn).choose else t
  have hg : ∀ n (hn : InB n N), g n = (hu n hn).choose := fun n hn => by simp only [g]; rw [dif_pos hn]
  have hmap := mapM_some (allIdx N) (fun n => (do
      let st := List.zipWith (· * ·) n S
      let w ← t.slice st (List.zipWith (· + ·) st W) (List.replicate W.length 1)
      return w.unsqueeze : Option (Ten α))) g (by
      intro n hn
      have hn := mem_allIdx.1 hn
      rw [hg n hn]; exact (hu n hn).choose_spec.1)
  obtain ⟨c, c1, c2, c3⟩ := concat0_spec (l := (allIdx N).map g) (sh := W)
    (by intro h0; have := congrArg List.length h0; simp [length_allIdx] at this; omega) (by
      intro u hu'
      obtain ⟨n, hn, rfl⟩ := List.mem_map.1 hu'
      have hn := mem_allIdx.1 hn
      rw [hg n hn]; exact (hu n hn).choose_spec.2.1)
  rw [List.length_map, length_allIdx] at c2
  obtain ⟨e, e1⟩ := reshape_isSome (t := c) (sh := N ++ W) (by rw [c2, size_append, size])
  obtain ⟨e2, e3⟩ := reshape_spec e1
  refine ⟨e, ?_, e2, fun n w hn hw => ?_⟩
  · unfold expandWindow
    rw [ht, numWin_eq h hD]
    simp only [Option.bind_eq_bind, Option.bind_some]
    rw [visit_eq p1]
    simp only [Option.bind_eq_bind] at hmap
    rw [hmap]
    simp only [Option.bind_some, c1, List.length_map, length_allIdx, numel_eq_size, if_true, e1]
  · have hp := pos_lt_size hn
    rw [e3 (n ++ w) (pos n N :: w) (InB_append hn hw) (by rw [c2]; exact .cons hp hw) (by rw [pos_append hn, c2, pos]),
      c3 (pos n N) (by simpa [length_allIdx] using hp) w]
    have hget : (allIdx N)[pos n N]'(by rw [length_allIdx]; exact hp) = n := by
      have := getElem_allIdx hn
      rw [List.getElem?_eq_getElem (by rw [length_allIdx]; exact hp)] at this
      exact Option.some_inj.1 this
    rw [List.getElem_map, hget, hg n hn]
    exact (hu n hn).choose_spec.2.2 w hw

/-! ## One line of a tensor of shape `sh ++ [L]` -/

theorem treeAxis_last (op : α → α → α) {sh : List ℕ} {L : ℕ} (hL : 0 < L) (t : Ten α) (ht : t.shape = sh ++ [L]) :
    (treeAxis op sh.length t).shape = sh ++ [1] ∧ ∀ i, i.length = sh.length → (treeAxis op sh.length t).get (i ++ [0]) =
      (treeReduce op ((List.range L).map fun k => t.get (i ++ [k]))).headD (t.get (i ++ [0])) := by
  have h1 : t.shape.getD sh.length 0 = L := by rw [ht]; simp
  unfold treeAxis
  refine ⟨?_, fun i hi => ?_⟩
  · simp only [h1]
    rw [ht, List.set_append_right _ _ (le_refl _), Nat.sub_self, List.set_cons_zero, Nat.min_eq_right hL]
  · simp only [h1]
    congr 3
    funext k
    rw [← hi, List.set_append_right _ _ (le_refl _), Nat.sub_self, List.set_cons_zero]

/-- expanded windows, flattened to lines -/
theorem lines_spec {N W : List ℕ} {e : Ten α} (he : e.shape = N ++ W) :
    ∃ f, e.reshape (N ++ [size W]) = some f ∧ f.shape = N ++ [size W] ∧
      ∀ n, InB n N → (List.range (size W)).map (fun k => f.get (n ++ [k])) = (allIdx W).map fun w => e.get (n ++ w) := by
  obtain ⟨f, f1⟩ := reshape_isSome (t := e) (sh := N ++ [size W]) (by rw [he, size_append, size_append, size_single])
  obtain ⟨f2, f3⟩ := reshape_spec f1
  refine ⟨f, f1, f2, fun n hn => ?_⟩
  rw [← map_pos_allIdx, List.map_map]
  apply List.map_congr_left
  intro w hw
  have hw := mem_allIdx.1 hw
  exact f3 _ _ (InB_append hn (InB_single (pos_lt_size hw))) (by rw [he]; exact InB_append hn hw)
    (by rw [he, pos_append hn, pos_append hn, size_single, pos_single])

theorem drop_one {N : List ℕ} {r : Ten α} (hr : r.shape = N ++ [1]) :
    ∃ u, r.reshape N = some u ∧ u.shape = N ∧ ∀ n, InB n N → u.get n = r.get (n ++ [0]) := by
  obtain ⟨u, u1⟩ := reshape_isSome (t := r) (sh := N) (by rw [hr, size_append, size_single, Nat.mul_one])
  obtain ⟨u2, u3⟩ := reshape_spec u1
  refine ⟨u, u1, u2, fun n hn => u3 _ _ hn ?_ ?_⟩
  · rw [hr]; exact InB_append hn (InB_single (by omega))
  · rw [hr, pos_append hn, size_single, pos_single]; omega

end Spu.Lemmas.T

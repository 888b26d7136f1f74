import Verif.Lemmas.ReduceAx
import Mathlib.Algebra.BigOperators.Group.List.Lemmas
import Mathlib.Tactic.IntervalCases
import Mathlib.Tactic.Order

set_option autoImplicit false

/-!
# C74: reductions over axes and over windows, arg-max and scatter
-/

namespace Spu.Props
open Spu.Spec Spu.Model Spu.Lemmas Spu.Lemmas.T Spu.Model.RW

variable {α β : Type}

/-! ## `Reduce` -/

/-- C74 (`Reduce`): the result keeps the rank, with extent 1 on the reduced axes, and its element at `j` is the fold of all
elements that agree with `j` on the other axes, followed by the initial value unless that is ignored. -/
theorem c74_reduce (op : α → α → α) (ha : ∀ a b c, op (op a b) c = op a (op b c)) (hc : ∀ a b, op a b = op b a)
    (dims : List ℕ) (init : α) (ignore : Bool) (t : Ten α) (hne : ∀ a ∈ dims, a < t.shape.length → t.shape.getD a 0 ≠ 0) :
    ∃ r, reduce op dims init ignore t = some r ∧ r.shape = keepDims dims t.shape ∧
      ∀ j, InB j (keepDims dims t.shape) → ∃ v, foldAll op ((fibre dims t.shape (rest dims j)).map t.get) = some v ∧
        r.get j = if ignore then v else op v init := by
  rw [show keepDims dims t.shape = outShape dims t.shape from rfl]
  obtain ⟨a1, a2, a3⟩ := axes_perm dims t.shape.length
  generalize hK : keptAxes dims t.shape.length = K at *
  generalize hR : redAxes dims t.shape.length = R at *
  have hR0 : 0 < size (permuted R t.shape) := by
    rw [size_pos_iff]
    intro h0
    obtain ⟨a, ha, h1⟩ := List.mem_map.1 h0
    rw [← hR] at ha
    simp only [redAxes, List.mem_filter, List.mem_range, decide_eq_true_eq] at ha
    exact hne a ha.2 ha.1 h1
  obtain ⟨tt, t1⟩ : ∃ tt, t.transpose (K ++ R) = some tt := by
    unfold Ten.transpose
    rw [if_pos ⟨a1, a2, fun a h => (a3 a).1 h⟩]; exact ⟨_, rfl⟩
  have t2 : tt.shape = permuted K t.shape ++ permuted R t.shape ∧ ∀ i, tt.get i = t.get (unperm (K ++ R) i) := by
    unfold Ten.transpose at t1
    rw [if_pos ⟨a1, a2, fun a h => (a3 a).1 h⟩] at t1
    cases t1
    refine ⟨permuted_append _ _ _, fun i => ?_⟩
    simp only [unperm, a1]
  obtain ⟨f, f1, f2, f3⟩ := lines_spec t2.1
  have hKl : (permuted K t.shape).length = K.length := by simp [permuted]
  obtain ⟨g1, g2⟩ := treeAxis_last op hR0 f f2
  rw [hKl] at g1 g2
  obtain ⟨u, u1⟩ := reshape_isSome (t := treeAxis op K.length f) (sh := outShape dims t.shape)
    (by rw [g1, size_append, size_single, Nat.mul_one, size_outShape, hK])
  obtain ⟨u2, u3⟩ := reshape_spec u1
  have key : ∀ j, InB j (outShape dims t.shape) →
      foldAll op ((fibre dims t.shape (rest dims j)).map t.get) = some (u.get j) := by
    intro j hj
    obtain ⟨r1, r2⟩ := rest_out hj
    rw [hK] at r1 r2
    rw [u3 j (rest dims j ++ [0]) hj (by rw [g1]; exact InB_append r1 (InB_single (by omega)))
      (by rw [g1, pos_append r1, size_single, pos_single, r2]; omega), g2 _ (by rw [InB.length r1, hKl])]
    rw [f3 _ r1]
    have hp := line_perm dims t.shape (rest dims j) (by rw [hK]; exact r1)
    rw [hK, hR] at hp
    rw [← foldAll_perm op ha hc (hp.map t.get), List.map_map]
    have he : (allIdx (permuted R t.shape)).map (fun w => tt.get (rest dims j ++ w)) =
        (allIdx (permuted R t.shape)).map (t.get ∘ fun u => unperm (K ++ R) (rest dims j ++ u)) := by
      apply List.map_congr_left
      intro w _
      exact t2.2 _
    rw [he]
    obtain ⟨v, v1, v2⟩ := treeReduce_foldAll op ha hc
      (xs := (allIdx (permuted R t.shape)).map (t.get ∘ fun u => unperm (K ++ R) (rest dims j ++ u))) (by
        intro h0
        have := congrArg List.length h0
        simp [length_allIdx] at this; omega)
    rw [v1, v2]
    rfl
  refine ⟨if ignore then u else u.map (op · init), ?_, ?_, ?_⟩
  · unfold reduce
    simp only [hK, hR, t1, f1, u1, Option.bind_eq_bind, Option.bind_some, Option.pure_def]
  · cases ignore <;> simp [Ten.map, u2]
  · intro j hj
    refine ⟨_, key j hj, ?_⟩
    cases ignore <;> simp [Ten.map]

/-- C74 (`Reduce`): over an axis of extent 0 nothing can be computed, even with an initial value — unless the result is empty. -/
theorem c74_reduce_empty (op : α → α → α) (dims : List ℕ) (init : α) (ignore : Bool) (t : Ten α)
    (h0 : ∃ a ∈ dims, a < t.shape.length ∧ t.shape.getD a 0 = 0) (hk : 0 ∉ keepDims dims t.shape) :
    reduce op dims init ignore t = none := by
  rw [show keepDims dims t.shape = outShape dims t.shape from rfl] at hk
  obtain ⟨a1, a2, a3⟩ := axes_perm dims t.shape.length
  have hk' := size_pos_iff.2 hk
  rw [size_outShape] at hk'
  generalize hK : keptAxes dims t.shape.length = K at *
  generalize hR : redAxes dims t.shape.length = R at *
  have hR0 : size (permuted R t.shape) = 0 := by
    obtain ⟨a, h1, h2, h3⟩ := h0
    have : ¬ 0 < size (permuted R t.shape) := by
      rw [size_pos_iff]
      push Not
      refine List.mem_map.2 ⟨a, ?_, h3⟩
      rw [← hR]
      simp [redAxes, h1, h2]
    omega
  unfold reduce
  simp only [hK, hR]
  unfold Ten.transpose
  rw [if_pos ⟨a1, a2, fun a h => (a3 a).1 h⟩]
  simp only [Option.bind_eq_bind, Option.bind_some]
  obtain ⟨f, f1, f2, f3⟩ := lines_spec (N := permuted K t.shape) (W := permuted R t.shape)
    (e := ⟨permuted (K ++ R) t.shape, fun i => t.get ((List.range t.shape.length).map fun a => i.getD ((K ++ R).idxOf a) 0)⟩)
    (permuted_append _ _ _)
  rw [f1]
  simp only [Option.bind_some]
  have : (treeAxis op K.length f).reshape (outShape dims t.shape) = none := by
    unfold Ten.reshape
    rw [if_neg]
    have hKl : (permuted K t.shape).length = K.length := by simp [permuted]
    rw [size_outShape, hK]
    simp only [treeAxis]
    rw [f2, hR0, ← hKl, List.set_append_right _ _ (le_refl _), Nat.sub_self, List.set_cons_zero]
    have h0 : (permuted K t.shape ++ [0]).getD (permuted K t.shape).length 0 = 0 := by simp
    rw [h0]
    simp only [Nat.zero_min, size_append, size_single, Nat.mul_zero]
    omega
  rw [this]
  rfl

/-- C74 (`ReduceOp` in the executor): the element at `q` is the fold of the elements whose other coordinates are `q`; the
initial value takes part exactly if axis number 0 is reduced. -/
theorem c74_reduceOp (op : α → α → α) (ha : ∀ a b c, op (op a b) c = op a (op b c)) (hc : ∀ a b, op a b = op b a)
    (dims : List ℕ) (init : α) (t : Ten α) (hne : ∀ a ∈ dims, a < t.shape.length → t.shape.getD a 0 ≠ 0) :
    ∃ r, reduceOp op dims init t = some r ∧ r.shape = rest dims t.shape ∧
      ∀ q, InB q (rest dims t.shape) → ∃ v, foldAll op ((fibre dims t.shape q).map t.get) = some v ∧
        r.get q = if 0 ∈ dims then op v init else v := by
  obtain ⟨u, u1, u2, u3⟩ := c74_reduce op ha hc dims init (decide (0 ∉ dims)) t hne
  rw [show keepDims dims t.shape = outShape dims t.shape from rfl] at u2 u3
  obtain ⟨r, r1⟩ := reshape_isSome (t := u) (sh := rest dims t.shape) (by rw [u2, size_outShape, rest_eq])
  obtain ⟨r2, r3⟩ := reshape_spec r1
  refine ⟨r, ?_, r2, fun q hq => ?_⟩
  · unfold reduceOp
    rw [u1]
    simp only [Option.bind_eq_bind, Option.bind_some]
    rw [← r1, rest_eq]
  · have hlt := pos_lt_size hq
    rw [rest_eq, ← size_outShape] at hlt
    obtain ⟨j, _, j2, j3⟩ := unflattenIndex_spec hlt
    obtain ⟨o1, o2⟩ := rest_out j2
    have hj : rest dims j = q := pos_inj o1 hq (by rw [← o2, j3])
    obtain ⟨v, v1, v2⟩ := u3 j j2
    rw [hj] at v1
    refine ⟨v, v1, ?_⟩
    rw [r3 q j hq (by rw [u2]; exact j2) (by rw [u2, j3, rest_eq]), v2]
    by_cases h0 : 0 ∈ dims <;> simp [h0]

/-- C74 (`ReduceOp`): so with an initial value that is neutral the result is the fold, whichever axes are reduced. -/
theorem c74_reduceOp_neutral (op : α → α → α) (ha : ∀ a b c, op (op a b) c = op a (op b c)) (hc : ∀ a b, op a b = op b a)
    (dims : List ℕ) (init : α) (hi : ∀ a, op a init = a) (t : Ten α)
    (hne : ∀ a ∈ dims, a < t.shape.length → t.shape.getD a 0 ≠ 0) :
    ∃ r, reduceOp op dims init t = some r ∧ r.shape = rest dims t.shape ∧
      ∀ q, InB q (rest dims t.shape) → foldAll op ((fibre dims t.shape q).map t.get) = some (r.get q) := by
  obtain ⟨r, r1, r2, r3⟩ := c74_reduceOp op ha hc dims init t hne
  refine ⟨r, r1, r2, fun q hq => ?_⟩
  obtain ⟨v, v1, v2⟩ := r3 q hq
  rw [v1, v2]
  simp [hi]

example : (do
    let r ← reduceOp (· + ·) [1] 7 (⟨[2, 3], fun i => 10 * i.getD 0 0 + i.getD 1 0⟩ : Ten ℕ)
    return (r.shape, r.get [0], r.get [1])) = some ([2], 3, 33) := by decide +kernel

/-- C74 (finding): the executor asks whether the *number* of a reduced axis is 0 instead of its extent, so a value that is not
neutral is added only if axis 0 is among the reduced ones; and an empty axis cannot be reduced. -/
theorem c74_reduceOp_init :
    (do let r ← reduceOp (· + ·) [1] 7 (⟨[1, 2], fun _ => 1⟩ : Ten ℕ); return r.get [0]) = some 2 ∧
    (do let r ← reduceOp (· + ·) [0] 7 (⟨[2, 1], fun _ => 1⟩ : Ten ℕ); return r.get [0]) = some 9 ∧
    (reduceOp (· + ·) [1] 7 (⟨[1, 0], fun _ => 1⟩ : Ten ℕ)).isNone ∧ (reduceOp (· + ·) [0] 7 (⟨[0, 1], fun _ => 1⟩ : Ten ℕ)).isNone := by
  decide +kernel

/-! ## Windows -/

theorem foldAll_line (op : α → α → α) (ha : ∀ a b c, op (op a b) c = op a (op b c)) (hc : ∀ a b, op a b = op b a)
    (xs : List α) (hx : 0 < xs.length) (d : α) : foldAll op xs = some ((treeReduce op xs).headD d) := by
  obtain ⟨v, v1, v2⟩ := treeReduce_foldAll op ha hc (xs := xs) (by rintro rfl; simp at hx)
  rw [v1, v2]
  rfl

theorem plain_spec (op : α → α → α) (ha : ∀ a b c, op (op a b) c = op a (op b c)) (hc : ∀ a b, op a b = op b a)
    {W S D N : List ℕ} (init : α) (ignore : Bool) (t : Ten α) (h : Windows t.shape W S D N) (hD : D.all (· = 1) = true)
    (lo hi : List Int) (hp : (lo ++ hi).any (· ≠ 0) = false) :
    ∃ r, reduceWindowPlain op W S lo hi init ignore N t = some r ∧ r.shape = N ∧ ∀ n, InB n N →
      ∃ v, foldAll op ((allIdx W).map fun w => t.get (winAt S D n w)) = some v ∧ r.get n = if ignore then v else op v init := by
  obtain ⟨e, e1, e2, e3⟩ := expand_spec h hD t rfl
  obtain ⟨f, f1, f2, f3⟩ := lines_spec e2
  obtain ⟨g1, g2⟩ := treeAxis_last op (Windows.pos h).2 f f2
  obtain ⟨u, u1, u2, u3⟩ := drop_one g1
  refine ⟨if ignore then u else u.map (op · init), ?_, by cases ignore <;> simp [Ten.map, u2], fun n hn => ?_⟩
  · unfold reduceWindowPlain expandPad
    rw [hp]
    simp only [Bool.false_eq_true, if_false, e1, f1, u1, Option.bind_eq_bind, Option.bind_some, Option.pure_def]
  · refine ⟨u.get n, ?_, by cases ignore <;> simp [Ten.map]⟩
    rw [u3 n hn, g2 n (InB.length hn), f3 n hn]
    have : (allIdx W).map (fun w => e.get (n ++ w)) = (allIdx W).map fun w => t.get (winAt S D n w) :=
      List.map_congr_left fun w hw => e3 n w hn (mem_allIdx.1 hw)
    rw [this]
    exact foldAll_line op ha hc _ (by rw [List.length_map, length_allIdx]; exact (Windows.pos h).2) _

theorem pad_zero (t : Ten α) (x : α) : ∃ p, t.pad x (List.replicate t.shape.length 0) (List.replicate t.shape.length 0)
    (List.replicate t.shape.length 0) = some p ∧ p.shape = t.shape ∧ ∀ i, InB i t.shape → p.get i = t.get i := by
  have h1 : ∀ sh : List ℕ, deducePadShape sh (List.replicate sh.length 0) (List.replicate sh.length 0)
      (List.replicate sh.length 0) = some sh := by
    intro sh
    induction sh with
    | nil => rfl
    | cons d ds ih =>
      simp only [List.length_cons, List.replicate_succ, deducePadShape, ih, Option.bind_eq_bind, Option.bind_some]
      rw [if_neg (by omega)]
      simp
  have h2 : ∀ (sh i : List ℕ), InB i sh → Ten.padSrc sh (List.replicate sh.length 0) (List.replicate sh.length 0) i = some i := by
    intro sh i hi
    induction hi with
    | nil => rfl
    | @cons k d ks ds hk _ ih =>
      simp only [List.length_cons, List.replicate_succ, Ten.padSrc, ih]
      rw [if_pos (by simp [Nat.mod_one]; exact hk)]
      simp
  unfold Ten.pad
  rw [h1]
  refine ⟨_, rfl, rfl, fun i hi => ?_⟩
  simp only [h2 _ _ hi]

theorem keepDims_all (sh : List ℕ) : keepDims (List.range sh.length) sh = List.replicate sh.length 1 := by
  rw [keepDims, List.eq_replicate_iff]
  refine ⟨by simp, ?_⟩
  intro b hb
  obtain ⟨a, h1, h2⟩ := List.mem_map.1 hb
  rw [if_pos h1] at h2
  exact h2.symm

theorem rest_all (i : List ℕ) (n : ℕ) (h : i.length ≤ n) : rest (List.range n) i = [] := by
  unfold rest
  rw [List.filter_eq_nil_iff.2]
  · rfl
  · intro a ha
    simp only [List.mem_range, decide_eq_true_eq, not_not] at ha ⊢
    omega

theorem fibre_all (sh : List ℕ) : fibre (List.range sh.length) sh [] = allIdx sh := by
  unfold fibre
  rw [List.filter_eq_self]
  intro i hi
  rw [rest_all i _ (by rw [InB.length (mem_allIdx.1 hi)])]
  simp

theorem size_onesRep (n : ℕ) : size (List.replicate n 1) = 1 := by
  induction n with
  | zero => rfl
  | succ n ih => simp [List.replicate_succ, size, ih]

/-- C74 (`ReduceWindowOp`): the element at `n` is the fold of the elements of window `n` — place `w` of it is
`n * stride + w * dilation` — followed by the initial value if some dilation is not 1. -/
theorem c74_window (op : α → α → α) (ha : ∀ a b c, op (op a b) c = op a (op b c)) (hc : ∀ a b, op a b = op b a)
    {W S D N : List ℕ} (init : α) (t : Ten α) (h : Windows t.shape W S D N) :
    ∃ r, reduceWindowOp op W S D init N t = some r ∧ r.shape = N ∧ ∀ n, InB n N →
      ∃ v, foldAll op ((allIdx W).map fun w => t.get (winAt S D n w)) = some v ∧
        r.get n = if D.all (· = 1) then v else op v init := by
  obtain ⟨l1, l2, l3, l4⟩ := Windows.lengths h
  obtain ⟨p1, p2⟩ := Windows.pos h
  have hW0 : decide (0 ∉ W) = true := by simpa using size_pos_iff.1 p2
  unfold reduceWindowOp reduceWindow
  have hones : (List.replicate W.length 1).all (· = 1) = true := by simp
  rw [hones, Bool.and_true]
  by_cases hD : D.all (· = 1) = true
  · rw [if_pos hD, hW0]
    obtain ⟨r, r1, r2, r3⟩ := plain_spec op ha hc init true t h hD (List.replicate W.length 0) (List.replicate W.length 0)
      (by simp)
    refine ⟨r, r1, r2, fun n hn => ?_⟩
    obtain ⟨v, v1, v2⟩ := r3 n hn
    exact ⟨v, v1, by rw [v2, if_pos rfl, if_pos hD]⟩
  · rw [if_neg hD]
    obtain ⟨p, q1, q2, q3⟩ := pad_zero t init
    have hz : (List.replicate W.length 1).map (· - 1) = List.replicate t.shape.length 0 := by simp [l2, l1]
    rw [hz, show W.length = t.shape.length by omega, q1]
    simp only [Option.bind_eq_bind, Option.bind_some]
    have hp : Windows p.shape W S D N := by rw [q2]; exact h
    have hWl : p.shape.length = W.length := by rw [q2]; omega
    have hu : ∀ n, InB n N → ∃ u, ((p.slice (List.zipWith (· * ·) n S) (winEnd (List.zipWith (· * ·) n S) W D) D).bind fun w =>
        (reduce op (List.range p.shape.length) init false w).bind fun r => pure r.unsqueeze) = some u ∧
        u.shape = 1 :: List.replicate W.length 1 ∧
        ∃ v, foldAll op ((allIdx W).map fun w => t.get (winAt S D n w)) = some v ∧
          u.get (0 :: List.replicate W.length 0) = op v init := by
      intro n hn
      obtain ⟨u, u1, u2, u3⟩ := slice_win hp hn p rfl
      obtain ⟨r, r1, r2, r3⟩ := c74_reduce op ha hc (List.range p.shape.length) init false u (by
        intro a _ h1 h2
        rw [u2] at h1 h2
        apply size_pos_iff.1 p2
        rw [← h2, List.getD_eq_getElem?_getD, List.getElem?_eq_getElem h1, Option.getD_some]
        exact List.getElem_mem h1)
      rw [u2, hWl, keepDims_all] at r2 r3
      refine ⟨r.unsqueeze, ?_, by simp [Ten.unsqueeze, r2], ?_⟩
      · rw [u1, Option.bind_some, r1]; rfl
      · obtain ⟨v, v1, v2⟩ := r3 (List.replicate W.length 0) (by
          have := InB_zeros (sh := List.replicate W.length 1) (by rw [size_onesRep]; omega)
          simpa using this)
        rw [rest_all _ _ (by simp), fibre_all] at v1
        refine ⟨v, ?_, by simpa [Ten.unsqueeze] using v2⟩
        rw [← v1]
        congr 1
        apply List.map_congr_left
        intro w hw
        have hw := mem_allIdx.1 hw
        rw [u3 w hw, q3 _ ((win_facts h hn).2.2.1 w hw).2]
    classical
    let g : List ℕ → Ten α := fun n => if hn : InB n N then (hu n hn).choose else t
    have hg : ∀ n (hn : InB n N), g n = (hu n hn).choose := fun n hn => by simp only [g]; rw [dif_pos hn]
    have hmap := mapM_some (allIdx N) _ g (by
      intro n hn
      have hn := mem_allIdx.1 hn
      rw [hg n hn]; exact (hu n hn).choose_spec.1)
    obtain ⟨c, c1, c2, c3⟩ := concat0_spec (l := (allIdx N).map g) (sh := List.replicate W.length 1)
      (by intro h0; have := congrArg List.length h0; simp [length_allIdx] at this; omega) (by
        intro u hu'
        obtain ⟨n, hn, rfl⟩ := List.mem_map.1 hu'
        have hn := mem_allIdx.1 hn
        rw [hg n hn]; exact (hu n hn).choose_spec.2.1)
    rw [List.length_map, length_allIdx] at c2
    obtain ⟨e, e1⟩ := reshape_isSome (t := c) (sh := N) (by rw [c2, size, size_onesRep, Nat.mul_one])
    obtain ⟨e2, e3⟩ := reshape_spec e1
    refine ⟨e, ?_, e2, fun n hn => ?_⟩
    · rw [visit_eq p1, hmap]
      simp only [Option.bind_some, List.length_map, length_allIdx, numel_eq_size, if_true, c1, e1]
    · obtain ⟨v, v1, v2⟩ := (hu n hn).choose_spec.2.2
      refine ⟨v, v1, ?_⟩
      rw [if_neg hD, ← v2]
      have hlt := pos_lt_size hn
      have hzz := InB_zeros (sh := List.replicate W.length 1) (by rw [size_onesRep]; omega)
      rw [List.length_replicate] at hzz
      have hpz := pos_zeros (List.replicate W.length 1)
      rw [List.length_replicate] at hpz
      rw [e3 n (pos n N :: List.replicate W.length 0) hn (by rw [c2]; exact .cons hlt hzz)
        (by rw [c2, pos, size_onesRep, hpz]; omega), c3 (pos n N) (by simpa [length_allIdx] using hlt)]
      have hget : (allIdx N)[pos n N]'(by rw [length_allIdx]; exact hlt) = n := by
        have := getElem_allIdx hn
        rw [List.getElem?_eq_getElem (by rw [length_allIdx]; exact hlt)] at this
        exact Option.some_inj.1 this
      rw [List.getElem_map, hget, hg n hn]

/-- C74 (`ReduceWindowOp`): with a neutral initial value it is the fold of the window. -/
theorem c74_window_neutral (op : α → α → α) (ha : ∀ a b c, op (op a b) c = op a (op b c)) (hc : ∀ a b, op a b = op b a)
    {W S D N : List ℕ} (init : α) (hi : ∀ a, op a init = a) (t : Ten α) (h : Windows t.shape W S D N) :
    ∃ r, reduceWindowOp op W S D init N t = some r ∧ r.shape = N ∧ ∀ n, InB n N →
      foldAll op ((allIdx W).map fun w => t.get (winAt S D n w)) = some (r.get n) := by
  obtain ⟨r, r1, r2, r3⟩ := c74_window op ha hc init t h
  refine ⟨r, r1, r2, fun n hn => ?_⟩
  obtain ⟨v, v1, v2⟩ := r3 n hn
  rw [v1, v2]
  simp [hi]

/-- a 5-element line, windows of 3 places -/
def lineT : Ten ℕ := ⟨[5], fun i => [3, 1, 4, 1, 5].getD (i.getD 0 0) 0⟩

example : Windows lineT.shape [3] [2] [1] [2] ∧ Windows lineT.shape [2] [1] [3] [2] ∧
    (do let r ← reduceWindowOp max [3] [2] [1] 0 [2] lineT; return (r.get [0], r.get [1])) = some (4, 5) ∧
    (do let r ← reduceWindowOp (· + ·) [2] [1] [3] 0 [2] lineT; return (r.get [0], r.get [1])) = some (4, 6) := by
  refine ⟨.cons ?_ ?_ ?_ ?_ ?_ ?_ .nil, .cons ?_ ?_ ?_ ?_ ?_ ?_ .nil, ?_, ?_⟩ <;> decide +kernel

/-- C74 (finding): an initial value that is not neutral is left out without dilation and taken with dilation. -/
theorem c74_window_init :
    (do let r ← reduceWindowOp (· + ·) [2] [1] [1] 100 [4] lineT; return r.get [0]) = some 4 ∧
    (do let r ← reduceWindowOp (· + ·) [2] [1] [2] 100 [3] lineT; return r.get [0]) = some 107 := by
  decide +kernel

/-! ## Arg-max -/

theorem argOp_pick [LinearOrder β] (l r : β × (ℕ → Bool)) : argOp l r = l ∨ argOp l r = r := by
  unfold argOp
  by_cases h : r.1 < l.1
  · left; simp [h]
  · right; simp [h]

theorem argOp_max [LinearOrder β] (l r : β × (ℕ → Bool)) : (argOp l r).1 = max l.1 r.1 := by
  unfold argOp
  by_cases h : r.1 < l.1
  · simp [h, max_eq_left h.le]
  · simp [h, max_eq_right (not_lt.1 h)]

/-- C74 (`ArgMax`): the value is the largest element of the window, and the mask marks exactly one place, which holds it. -/
theorem c74_argmax [LinearOrder β] {W S D N : List ℕ} (t : Ten β) (h : Windows t.shape W S D N) (hD : D.all (· = 1) = true) :
    ∃ r, argMax W S N t = some r ∧ r.shape = N ∧ ∀ n, InB n N → ∃ w0, InB w0 W ∧ (r.get n).1 = t.get (winAt S D n w0) ∧
      (∀ w, InB w W → t.get (winAt S D n w) ≤ (r.get n).1) ∧ ∀ k, (r.get n).2 k = decide (k = pos w0 W) := by
  obtain ⟨e, e1, e2, e3⟩ := expand_spec h hD t rfl
  obtain ⟨f, f1, f2, f3⟩ := lines_spec e2
  obtain ⟨g1, g2⟩ := treeAxis_last argOp (Windows.pos h).2
    (⟨f.shape, fun i => (f.get i, fun k => decide (k = i.getD N.length 0))⟩ : Ten (β × (ℕ → Bool))) f2
  obtain ⟨u, u1, u2, u3⟩ := drop_one g1
  refine ⟨u, ?_, u2, fun n hn => ?_⟩
  · unfold argMax
    simp only [e1, f1, Option.bind_eq_bind, Option.bind_some]
    exact u1
  · have hlen := InB.length hn
    have hline : ((List.range (size W)).map fun k => ((f.get (n ++ [k]), fun k' => decide (k' = (n ++ [k]).getD N.length 0)) :
        β × (ℕ → Bool))) = (allIdx W).map fun w => (t.get (winAt S D n w), fun k' => decide (k' = pos w W)) := by
      have h3 := f3 n hn
      rw [← map_pos_allIdx, List.map_map] at h3 ⊢
      apply List.map_congr_left
      intro w hw
      have h4 := (List.map_inj_left.1 h3) w hw
      simp only [Function.comp_apply] at h4 ⊢
      rw [h4, e3 n w hn (mem_allIdx.1 hw)]
      have : (n ++ [pos w W]).getD N.length 0 = pos w W := by rw [← hlen]; simp
      rw [this]
    obtain ⟨r, r1, r2, r3⟩ := treeReduce_pick argOp (fun x => x.1) argOp_pick argOp_max
      ((allIdx W).map fun w => ((t.get (winAt S D n w), fun k' => decide (k' = pos w W)) : β × (ℕ → Bool))) (by
        intro h0
        have := congrArg List.length h0
        have := (Windows.pos h).2
        simp [length_allIdx] at *; omega)
    have hu : u.get n = r := by
      rw [u3 n hn, g2 n hlen]
      simp only
      rw [hline, r1]
      rfl
    obtain ⟨w0, hw0, rfl⟩ := List.mem_map.1 r2
    rw [hu]
    refine ⟨w0, mem_allIdx.1 hw0, rfl, fun w hw => ?_, fun k => rfl⟩
    exact r3 _ (List.mem_map_of_mem (f := fun w => ((t.get (winAt S D n w), fun k' => decide (k' = pos w W)) : β × (ℕ → Bool)))
      (mem_allIdx.2 hw))

example : (do let r ← argMax [3] [2] [2] lineT; return ((r.get [0]).1, (List.range 3).map (r.get [0]).2, (r.get [1]).1,
    (List.range 3).map (r.get [1]).2)) = some (4, [false, false, true], 5, [false, false, true]) := by decide +kernel

/-- C74 (`ArgMax`, fast path): the version for windows 1×2×2×1 does the same. -/
theorem c74_argmax_fast [LinearOrder β] {s1 s2 : ℕ} {N : List ℕ} (t : Ten β)
    (h : Windows t.shape [1, 2, 2, 1] [1, s1, s2, 1] [1, 1, 1, 1] N) :
    ∃ r, argMaxFast s1 s2 t = some r ∧ r.shape = N ∧ ∀ n, InB n N → ∃ w0, InB w0 [1, 2, 2, 1] ∧
      (r.get n).1 = t.get (winAt [1, s1, s2, 1] [1, 1, 1, 1] n w0) ∧
      (∀ w, InB w [1, 2, 2, 1] → t.get (winAt [1, s1, s2, 1] [1, 1, 1, 1] n w) ≤ (r.get n).1) ∧
      ∀ k, k < 4 → (r.get n).2 k = decide (k = pos w0 [1, 2, 2, 1]) := by
  obtain ⟨sh, g⟩ := t
  simp only at h
  rcases h with _ | @⟨a, _, _, _, n0, _, _, _, _, _, _, _, _, _, a5, a6, h⟩
  rcases h with _ | @⟨b, _, _, _, n1, _, _, _, _, _, _, b2, _, b4, b5, b6, h⟩
  rcases h with _ | @⟨c, _, _, _, n2, _, _, _, _, _, _, c2, _, c4, c5, c6, h⟩
  rcases h with _ | @⟨d, _, _, _, n3, _, _, _, _, _, _, _, _, _, d5, d6, h⟩
  cases h
  have hn0 : n0 = a := by omega
  have hn3 : n3 = d := by omega
  subst hn0 hn3
  have e2 : (c - 1 - 0 + (s2 - 1)) / s2 = n2 := by
    obtain ⟨m, rfl⟩ : ∃ m, n2 = m + 1 := ⟨n2 - 1, by omega⟩
    apply Nat.div_eq_of_lt_le
    · rw [Nat.add_mul]; simp at c5; omega
    · rw [Nat.add_mul]; omega
  have e1 : (b - 1 - 0 + (s1 - 1)) / s1 = n1 := by
    obtain ⟨m, rfl⟩ : ∃ m, n1 = m + 1 := ⟨n1 - 1, by omega⟩
    apply Nat.div_eq_of_lt_le
    · rw [Nat.add_mul]; simp at b5; omega
    · rw [Nat.add_mul]; omega
  have hs1 : s1 ≠ 0 := by omega
  have hs2 : s2 ≠ 0 := by omega
  have e1' : (b - 1 + (s1 - 1)) / s1 = n1 := by simpa using e1
  have e2' : (c - 1 + (s2 - 1)) / s2 = n2 := by simpa using e2
  have hs1' : ¬ 0 = s1 := by omega
  have hs2' : ¬ 0 = s2 := by omega
  refine ⟨_, by
    simp only [argMaxFast, Ten.slice, Ten.fits, sliceShape, Ten.zip]
    simp [hs1', hs2', e1', e2', Ten.fits]
    rfl, ?_, ?_⟩
  · rfl
  · intro n hn
    rcases hn with _ | @⟨i0, _, _, _, _, hn⟩
    rcases hn with _ | @⟨i1, _, _, _, _, hn⟩
    rcases hn with _ | @⟨i2, _, _, _, _, hn⟩
    rcases hn with _ | @⟨i3, _, _, _, _, hn⟩
    cases hn
    have hw : ∀ (P : List ℕ → Prop), (∀ w, InB w [1, 2, 2, 1] → P w) ↔
        P [0, 0, 0, 0] ∧ P [0, 0, 1, 0] ∧ P [0, 1, 0, 0] ∧ P [0, 1, 1, 0] := by
      intro P
      have : allIdx [1, 2, 2, 1] = [[0, 0, 0, 0], [0, 0, 1, 0], [0, 1, 0, 0], [0, 1, 1, 0]] := by decide
      constructor
      · intro hP
        refine ⟨hP _ ?_, hP _ ?_, hP _ ?_, hP _ ?_⟩ <;> (rw [← mem_allIdx, this]; simp)
      · rintro ⟨p1, p2, p3, p4⟩ w hw
        rw [← mem_allIdx, this] at hw
        simp only [List.mem_cons, List.not_mem_nil, or_false] at hw
        rcases hw with rfl | rfl | rfl | rfl <;> assumption
    have hin : ∀ x y, x < 2 → y < 2 → InB [0, x, y, 0] [1, 2, 2, 1] := fun x y hx hy =>
      .cons (by omega) (.cons hx (.cons hy (.cons (by omega) .nil)))
    have hk : ∀ (P : ℕ → Prop), P 0 → P 1 → P 2 → P 3 → ∀ k, k < 4 → P k := by
      intro P p0 p1 p2 p3 k hk
      interval_cases k <;> assumption
    simp only [hw, affine, winAt]
    simp only [Nat.mul_one, Nat.zero_add, Nat.zero_mul, Nat.add_zero, Nat.one_mul]
    rw [show 1 + i1 * s1 = i1 * s1 + 1 by ring, show 1 + i2 * s2 = i2 * s2 + 1 by ring]
    generalize gx00 : g [i0, i1 * s1, i2 * s2, i3] = x00
    generalize gx01 : g [i0, i1 * s1, i2 * s2 + 1, i3] = x01
    generalize gx10 : g [i0, i1 * s1 + 1, i2 * s2, i3] = x10
    generalize gx11 : g [i0, i1 * s1 + 1, i2 * s2 + 1, i3] = x11
    by_cases hA : x01 < x00
    · by_cases hB : x11 < x10
      · by_cases hV : x10 < x00
        · refine ⟨[0, 0, 0, 0], hin _ _ (by omega) (by omega), by simp [hA, hB, hV, winAt, gx00, gx01, gx10, gx11], ?_, ?_⟩
          · simp only [hA, hB, hV, if_true, if_false, decide_true, decide_false, Bool.false_eq_true]
            refine ⟨?_, ?_, ?_, ?_⟩ <;> order
          · apply hk <;> simp [hA, hB, hV, pos, size]
        · refine ⟨[0, 1, 0, 0], hin _ _ (by omega) (by omega), by simp [hA, hB, hV, winAt, gx00, gx01, gx10, gx11], ?_, ?_⟩
          · simp only [hA, hB, hV, if_true, if_false, decide_true, decide_false, Bool.false_eq_true]
            refine ⟨?_, ?_, ?_, ?_⟩ <;> order
          · apply hk <;> simp [hA, hB, hV, pos, size]
      · by_cases hV : x11 < x00
        · refine ⟨[0, 0, 0, 0], hin _ _ (by omega) (by omega), by simp [hA, hB, hV, winAt, gx00, gx01, gx10, gx11], ?_, ?_⟩
          · simp only [hA, hB, hV, if_true, if_false, decide_true, decide_false, Bool.false_eq_true]
            refine ⟨?_, ?_, ?_, ?_⟩ <;> order
          · apply hk <;> simp [hA, hB, hV, pos, size]
        · refine ⟨[0, 1, 1, 0], hin _ _ (by omega) (by omega), by simp [hA, hB, hV, winAt, gx00, gx01, gx10, gx11], ?_, ?_⟩
          · simp only [hA, hB, hV, if_true, if_false, decide_true, decide_false, Bool.false_eq_true]
            refine ⟨?_, ?_, ?_, ?_⟩ <;> order
          · apply hk <;> simp [hA, hB, hV, pos, size]
    · by_cases hB : x11 < x10
      · by_cases hV : x10 < x01
        · refine ⟨[0, 0, 1, 0], hin _ _ (by omega) (by omega), by simp [hA, hB, hV, winAt, gx00, gx01, gx10, gx11], ?_, ?_⟩
          · simp only [hA, hB, hV, if_true, if_false, decide_true, decide_false, Bool.false_eq_true]
            refine ⟨?_, ?_, ?_, ?_⟩ <;> order
          · apply hk <;> simp [hA, hB, hV, pos, size]
        · refine ⟨[0, 1, 0, 0], hin _ _ (by omega) (by omega), by simp [hA, hB, hV, winAt, gx00, gx01, gx10, gx11], ?_, ?_⟩
          · simp only [hA, hB, hV, if_true, if_false, decide_true, decide_false, Bool.false_eq_true]
            refine ⟨?_, ?_, ?_, ?_⟩ <;> order
          · apply hk <;> simp [hA, hB, hV, pos, size]
      · by_cases hV : x11 < x01
        · refine ⟨[0, 0, 1, 0], hin _ _ (by omega) (by omega), by simp [hA, hB, hV, winAt, gx00, gx01, gx10, gx11], ?_, ?_⟩
          · simp only [hA, hB, hV, if_true, if_false, decide_true, decide_false, Bool.false_eq_true]
            refine ⟨?_, ?_, ?_, ?_⟩ <;> order
          · apply hk <;> simp [hA, hB, hV, pos, size]
        · refine ⟨[0, 1, 1, 0], hin _ _ (by omega) (by omega), by simp [hA, hB, hV, winAt, gx00, gx01, gx10, gx11], ?_, ?_⟩
          · simp only [hA, hB, hV, if_true, if_false, decide_true, decide_false, Bool.false_eq_true]
            refine ⟨?_, ?_, ?_, ?_⟩ <;> order
          · apply hk <;> simp [hA, hB, hV, pos, size]

end Spu.Props

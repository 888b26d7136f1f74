import Verif.Lemmas.SortDim
import Verif.Props.QuickSort
set_option autoImplicit false
/-!
# C81: sorting and top-k along a dimension act on every line separately

`kernel/hal/permute.cc:93-193, 1518-1756`, `kernel/hlo/sort.cc`, `kernel/hlo/rank.cc`.
-/

namespace Spu.Props
open Spu.Spec Spu.Model Spu.Model.SortDim Spu.Lemmas Spu.Lemmas.T Spu.Lemmas.SortDim
open Spu.Model.SortNet Spu.Model.QuickSort Spu.Model.Con

variable {α : Type}

/-- **C81 (lines)**: for every number of operands of every shape without an empty dimension and every
dimension `d`, if the function for lines returns as many lines of the same length, then the result
has the operands' shape, and through every place its lines along `d` are what the function makes of
the operands' lines through that place. -/
theorem c81_permute [Inhabited α] (fn : ℕ → List (List α) → Option (List (List α)))
    (inputs : List (Ten α)) (hne : inputs ≠ []) (sh : List ℕ) (hs : ∀ t ∈ inputs, t.shape = sh)
    (d : ℕ) (hd : d < sh.length) (hpos : 0 ∉ sh)
    (hf : ∀ r i, InB i sh → ∃ ls, fn r (inputs.map (lineThrough · d i)) = some ls ∧
      ls.length = inputs.length ∧ ∀ l ∈ ls, l.length = sh.getD d 0) :
    ∃ out, permuteDim fn inputs d = some out ∧ out.length = inputs.length ∧
      (∀ t ∈ out, t.shape = sh) ∧
      ∀ i, InB i sh → ∃ r, fn r (inputs.map (lineThrough · d i)) =
        some (out.map (lineThrough · d i)) := by
  obtain ⟨x, xs, rfl⟩ := List.exists_cons_of_ne_nil hne
  have hx : x.shape = sh := hs x (by simp)
  have hm := moved sh d hd
  set p := swapLast (List.range sh.length) d with hp
  set A := (swapLast sh d).dropLast with hA
  obtain ⟨W, hW⟩ : ∃ W, W = sh.getD d 0 := ⟨_, rfl⟩
  have hshape : permuted p sh = A ++ [W] := by rw [hW]; exact hm.shape
  rw [← hW] at hf
  have hTen : Nonempty (Ten α) := ⟨x⟩
  obtain ⟨p1, p2, p3⟩ := perm_facts hm.perm
  have hW0 : 0 < W := by
    rcases Nat.eq_zero_or_pos W with h | h
    · exfalso; apply hpos
      rw [hW] at h
      have e : sh.getD d 0 = sh[d] := by simp [List.getD, List.getElem?_eq_getElem hd]
      rw [e] at h
      rw [← h]; exact List.getElem_mem _
    · exact h
  have hAlen : A.length + 1 = sh.length := by
    have := congrArg List.length hshape
    simp only [permuted, List.length_map, List.length_append, List.length_singleton, p1] at this
    omega
  have hsz : size sh = size A * W := by
    have e : permuted p sh = swapLast sh d := permuted_swapLast sh d hd
    have h1 : size (permuted p sh) = size sh := by rw [e]; exact size_perm (swapLast_perm sh d hd)
    rw [← h1, hshape, size_append, size_single]
  have hN : size sh / W = size A := by rw [hsz, Nat.mul_div_cancel _ hW0]
  have hA0 : 0 < size A := by
    have h0 := size_pos_iff.2 hpos
    rw [hsz] at h0
    exact Nat.pos_of_mul_pos_right h0
  -- the two-dimensional views
  have h2d : ∀ t : Ten α, t.shape = sh → ∃ v : Ten α, (do
      let t ← t.transpose p
      t.reshape [size A, W]) = some v ∧ v.shape = [size A, W] ∧
      ∀ J k, InB J A → k < W → v.get [pos J A, k] = t.get (placed p (J ++ [k])) := by
    intro t ht
    obtain ⟨r, r1, r2, r3⟩ := transpose_spec (perm := p) t (by rw [ht, p1]) p2
      (fun a ha => by rw [ht]; exact (p3 a).1 ha)
    rw [ht, hshape] at r2
    obtain ⟨v, v1⟩ := reshape_isSome (t := r) (sh := [size A, W])
      (by rw [r2, size_append]; simp [size])
    obtain ⟨v2, v3⟩ := reshape_spec v1
    refine ⟨v, ?_, v2, fun J k hJ hk => ?_⟩
    · rw [r1]; exact v1
    · rw [v3 [pos J A, k] (J ++ [k]) (.cons (pos_lt_size hJ) (InB_single hk))
        (by rw [r2]; exact InB_append hJ (InB_single hk))
        (by rw [r2, pos_append hJ, size_single, pos_single]; simp [pos, size])]
      exact r3 _
  choose! V hV1 hV2 hV3 using h2d
  -- the places of line `a`
  have hline : ∀ J k, InB J A → k < W → InB (placed p (J ++ [k])) sh := by
    intro J k hJ hk
    refine InB_unperm (perm := p) (by omega) (fun a ha => (p3 a).2 (by omega)) ?_
    rw [hshape]
    exact InB_append hJ (InB_single hk)
  have hlines : ∀ t : Ten α, t.shape = sh → ∀ J k, InB J A →
      lineThrough t d (placed p (J ++ [k])) = (List.range W).map fun k => t.get (placed p (J ++ [k])) := by
    intro t ht J k hJ
    unfold lineThrough
    rw [ht, ← hW]
    apply List.map_congr_left
    intro b _
    have hJl : J.length = A.length := (InB_iff.1 hJ).1
    rw [moved_set hm hd J (by omega)]
  have hrow : ∀ a < size A, ∃ J, InB J A ∧ pos J A = a := fun a ha => by
    obtain ⟨J, -, h2, h3⟩ := unflattenIndex_spec ha
    exact ⟨J, h2, h3⟩
  -- what the function gets for line `a`
  let P : ℕ → List ℕ := fun a => placed p (((unflattenIndex a A).getD []) ++ [0])
  have hP : ∀ J, InB J A → P (pos J A) = placed p (J ++ [0]) := by
    intro J hJ
    show placed p (((unflattenIndex (pos J A) A).getD []) ++ [0]) = _
    rw [unflatten_of_InB hJ, Option.getD_some]
  let G : ℕ → List (List α) := fun a => (fn a ((x :: xs).map (lineThrough · d (P a)))).getD []
  have hG : ∀ a < size A, fn a ((x :: xs).map (lineThrough · d (P a))) = some (G a) ∧
      (G a).length = (x :: xs).length ∧ ∀ l ∈ G a, l.length = W := by
    intro a ha
    obtain ⟨J, hJ, e⟩ := hrow a ha
    have hin : InB (P a) sh := by rw [← e, hP J hJ]; exact hline J 0 hJ hW0
    obtain ⟨ls, l1, l2, l3⟩ := hf a (P a) hin
    have : G a = ls := by show Option.getD _ _ = _; rw [l1]; rfl
    rw [this]
    exact ⟨l1, l2, l3⟩
  -- the results
  have hres : ∀ mi < (x :: xs).length, ∃ r : Ten α, (do
      let output2d ← ((List.range (size A)).map G).mapM fun r =>
        (r[mi]?).map fun l => (ofVec l).unsqueeze
      let result ← Ten.concat0 output2d
      let result ← result.reshape (swapLast sh d)
      result.transpose (inverseIndex p)) = some r ∧ r.shape = sh ∧
      ∀ J k, InB J A → k < W → r.get (placed p (J ++ [k])) =
        (((G (pos J A)).getD mi []).getD k default) := by
    intro mi hmi
    have o1 : ((List.range (size A)).map G).mapM (fun r =>
        (r[mi]?).map fun l => (ofVec l).unsqueeze) =
        some ((List.range (size A)).map fun a => (ofVec ((G a).getD mi [])).unsqueeze) := by
      rw [mapM_some _ _ (fun r => (ofVec (r.getD mi [])).unsqueeze)]
      · rw [List.map_map]; rfl
      · intro g hg
        obtain ⟨a, ha, rfl⟩ := List.mem_map.1 hg
        have hl := (hG a (List.mem_range.1 ha)).2.1
        rw [List.getElem?_eq_getElem (by omega), Option.map_some]
        congr 3
        simp [List.getD, List.getElem?_eq_getElem (show mi < (G a).length by omega)]
    obtain ⟨c, c1, c2, c3⟩ := concat0_spec
      (l := (List.range (size A)).map fun a => (ofVec ((G a).getD mi [])).unsqueeze)
      (by simp; omega) (sh := [W]) (by
        intro u hu
        obtain ⟨a, ha, rfl⟩ := List.mem_map.1 hu
        obtain ⟨-, g2, g3⟩ := hG a (List.mem_range.1 ha)
        have : ((G a).getD mi []).length = W := by
          rw [List.getD, List.getElem?_eq_getElem (by omega)]
          exact g3 _ (List.getElem_mem _)
        show [1, ((G a).getD mi []).length] = [1, W]
        rw [this])
    rw [List.length_map, List.length_range] at c2
    have hperm' : swapLast sh d = A ++ [W] := by
      rw [← hshape]; exact (permuted_swapLast sh d hd).symm
    obtain ⟨u, u1⟩ := reshape_isSome (t := c) (sh := swapLast sh d)
      (by rw [c2, hperm', size_append]; simp [size])
    obtain ⟨u2, u3⟩ := reshape_spec u1
    obtain ⟨i1, i2, i3⟩ := inversePerm_facts hm.perm
    obtain ⟨r, r1, r2, r3⟩ := transpose_spec (perm := inversePerm p) u
      (by rw [u2, i1, hperm']; simp; omega) i2
      (fun a ha => by rw [u2, hperm']; simp; have := (i3 a).1 ha; omega)
    refine ⟨r, ?_, ?_, fun J k hJ hk => ?_⟩
    · simp only [o1, Option.bind_eq_bind, Option.bind_some, c1, u1, inverseIndex_eq hm.perm, r1]
    · rw [r2, u2, hperm', ← hshape, permuted_inversePerm]
      exact placed_permuted hm.perm rfl
    · have hJl : J.length = A.length := (InB_iff.1 hJ).1
      have hpl : (placed p (J ++ [k])).length = sh.length := by simp [placed, p1]
      rw [r3, placed_inversePerm hm.perm hpl, permuted_placed hm.perm (by simp; omega)]
      rw [u3 (J ++ [k]) [pos J A, k] (by rw [hperm']; exact InB_append hJ (InB_single hk))
        (by rw [c2]; exact .cons (pos_lt_size hJ) (InB_single hk))
        (by rw [c2, hperm', pos_append hJ, size_single, pos_single]; simp [pos, size])]
      have hl : pos J A < ((List.range (size A)).map fun a =>
        (ofVec ((G a).getD mi [])).unsqueeze).length := by simpa using pos_lt_size hJ
      rw [c3 _ hl]
      simp [Ten.unsqueeze, ofVec]
  choose! R hR1 hR2 hR3 using hres
  refine ⟨(List.range (x :: xs).length).map R, ?_, by simp, ?_, ?_⟩
  · unfold permuteDim
    simp only [hx]
    rw [if_pos hd, if_neg (by omega)]
    rw [← hW, ← hp, hN]
    have e1 : (x :: xs).mapM (fun t => do
        let t ← t.transpose p
        t.reshape [size A, W]) = some ((x :: xs).map V) :=
      mapM_some _ _ _ fun t ht => hV1 t (hs t ht)
    have e2 : (List.range (size A)).mapM (fun ni => do
        let lines ← ((x :: xs).map V).mapM fun t => rowVec t ni W
        fn ni lines) = some ((List.range (size A)).map G) := by
      apply mapM_some
      intro a ha
      have ha := List.mem_range.1 ha
      obtain ⟨J, hJ, e⟩ := hrow a ha
      have e3 : ((x :: xs).map V).mapM (fun t => rowVec t a W) =
          some ((x :: xs).map (lineThrough · d (P a))) := by
        rw [mapM_some _ _ (fun v => (List.range W).map fun k => v.get [a, k])]
        · rw [List.map_map]
          congr 1
          apply List.map_congr_left
          intro t ht
          rw [← e, hP J hJ, hlines t (hs t ht) J 0 hJ]
          apply List.map_congr_left
          intro k hk
          exact hV3 t (hs t ht) J k hJ (List.mem_range.1 hk)
        · intro v hv
          obtain ⟨t, ht, rfl⟩ := List.mem_map.1 hv
          exact rowVec_ok (hV2 t (hs t ht)) ha
      rw [e3]
      exact (hG a ha).1
    have e4 := mapM_some (List.range (x :: xs).length) _ _ fun mi hmi => hR1 mi (List.mem_range.1 hmi)
    have e1' := e1
    have e2' := e2
    have e4' := e4
    simp only [Option.bind_eq_bind] at e1' e2' e4' ⊢
    rw [e1', Option.bind_some, e2', Option.bind_some]
    exact e4'
  · intro t ht
    obtain ⟨mi, hmi, rfl⟩ := List.mem_map.1 ht
    exact hR2 mi (List.mem_range.1 hmi)
  · intro i hi
    have hil : i.length = sh.length := (InB_iff.1 hi).1
    have hlast := hm.last i hil
    have hin := InB_permuted (p := p) hi (fun a ha => (p3 a).1 ha)
    rw [hshape, hlast] at hin
    obtain ⟨hJ, hk⟩ := InB_snoc hin
    set J := (permuted p i).dropLast with hJdef
    have hi' : i = placed p (J ++ [i.getD d 0]) := by
      rw [← hlast]; exact (placed_permuted hm.perm hil).symm
    have key : ∀ t : Ten α, t.shape = sh → lineThrough t d i = lineThrough t d (P (pos J A)) := by
      intro t ht
      rw [hP J hJ, hlines t ht J 0 hJ, hi', hlines t ht J _ hJ]
    obtain ⟨g1, g2, g3⟩ := hG (pos J A) (pos_lt_size hJ)
    refine ⟨pos J A, ?_⟩
    have e1 : (x :: xs).map (lineThrough · d i) = (x :: xs).map (lineThrough · d (P (pos J A))) :=
      List.map_congr_left fun t ht => key t (hs t ht)
    rw [e1, g1]
    congr 1
    apply List.ext_getElem
    · simp [g2]
    · intro mi h1 h2
      simp only [List.length_map, List.length_range] at h2
      simp only [List.getElem_map, List.getElem_range]
      have hwl : (G (pos J A))[mi].length = W := g3 _ (List.getElem_mem _)
      rw [key (R mi) (hR2 mi h2), hP J hJ, hlines (R mi) (hR2 mi h2) J 0 hJ]
      apply List.ext_getElem
      · simp [hwl]
      · intro k k1 k2
        simp only [List.length_map, List.length_range] at k2
        simp only [List.getElem_map, List.getElem_range]
        rw [hR3 mi h2 J k hJ k2]
        simp [List.getD, List.getElem?_eq_getElem h1, List.getElem?_eq_getElem k1]

/-- **C81 (no lines)**: if another dimension is empty the code fails instead of returning the (empty)
operands: sorting a tensor of shape (0, 3) along its last dimension throws, along its first it does
not. -/
theorem c81_no_lines [Inhabited α] (fn : ℕ → List (List α) → Option (List (List α))) (x : Ten α)
    (hx : x.shape = [0, 3]) : permuteDim fn [x] 1 = none ∧ permuteDim fn [x] 0 = some [x] := by
  constructor
  · unfold permuteDim
    simp only [hx]
    obtain ⟨r, r1, r2, -⟩ := transpose_spec (perm := swapLast (List.range 2) 1) x (by rw [hx]; rfl)
      (by decide) (by rw [hx]; decide)
    obtain ⟨v, v1⟩ := reshape_isSome (t := r) (sh := [0, 3]) (by rw [r2, hx]; decide)
    have e : size [0, 3] / 3 = 0 := by decide
    have e2 : [0, 3].getD 1 0 = 3 := rfl
    simp only [List.length_cons, List.length_nil, e2, e, Nat.reduceAdd]
    rw [if_pos (by decide), if_neg (by decide)]
    simp [r1, v1, Ten.concat0]
  · unfold permuteDim
    simp only [hx]
    rw [if_pos (by decide), if_pos (by decide)]

/-! ## top-k along the last dimension -/

/-- lines put together to a tensor -/
theorem assemble [Inhabited α] {β : Type} (L : List β) (vec : β → Option (List α)) (A : List ℕ)
    (k : ℕ) (hA : L.length = size A) (h0 : 0 < size A)
    (hv : ∀ b ∈ L, ∃ l, vec b = some l ∧ l.length = k) :
    ∃ v : Ten α, (do
        let two ← L.mapM fun b => do
          let i ← vec b
          (ofVec i).reshape [1, k]
        let v ← Ten.concat0 two
        v.reshape (A ++ [k])) = some v ∧ v.shape = A ++ [k] ∧
      ∀ J b, InB J A → b < k → ∃ h : pos J A < L.length,
        some (v.get (J ++ [b])) = (vec (L[pos J A])).bind (fun l => l[b]?) := by
  have h1 : ∀ b ∈ L, ∃ t : Ten α, (do
      let i ← vec b
      (ofVec i).reshape [1, k]) = some t ∧ t.shape = [1, k] ∧
      ∀ j < k, some (t.get [0, j]) = (vec b).bind (fun l => l[j]?) := by
    intro b hb
    obtain ⟨l, l1, l2⟩ := hv b hb
    obtain ⟨t, t1⟩ := reshape_isSome (t := ofVec l) (sh := [1, k]) (by simp [ofVec, size, l2])
    obtain ⟨t2, t3⟩ := reshape_spec t1
    refine ⟨t, by rw [l1]; exact t1, t2, fun j hj => ?_⟩
    rw [t3 [0, j] [j] (.cons (by omega) (InB_single hj)) (by simp only [ofVec, l2]; exact InB_single hj)
      (by simp [ofVec, pos, size])]
    rw [l1, Option.bind_some, List.getElem?_eq_getElem (by omega)]
    simp [ofVec, List.getD, List.getElem?_eq_getElem (show j < l.length by omega)]
  have hLne : L ≠ [] := by
    intro h; rw [h] at hA; simp at hA; omega
  have hTen : Nonempty (Ten α) := by
    obtain ⟨b, bs, rfl⟩ := List.exists_cons_of_ne_nil hLne
    obtain ⟨t, -⟩ := h1 b (by simp)
    exact ⟨t⟩
  choose! T hT1 hT2 hT3 using h1
  have e1 := mapM_some L _ _ hT1
  obtain ⟨c, c1, c2, c3⟩ := concat0_spec (l := L.map T) (by simpa using hLne) (sh := [k]) (by
    intro u hu
    obtain ⟨b, hb, rfl⟩ := List.mem_map.1 hu
    exact hT2 b hb)
  rw [List.length_map, hA] at c2
  obtain ⟨v, v1⟩ := reshape_isSome (t := c) (sh := A ++ [k]) (by rw [c2, size_append]; simp [size])
  obtain ⟨v2, v3⟩ := reshape_spec v1
  refine ⟨v, ?_, v2, fun J b hJ hb => ?_⟩
  · simp only [Option.bind_eq_bind] at e1 ⊢
    rw [e1, Option.bind_some, c1, Option.bind_some, v1]
  · have hlt : pos J A < L.length := by rw [hA]; exact pos_lt_size hJ
    refine ⟨hlt, ?_⟩
    rw [v3 (J ++ [b]) [pos J A, b] (InB_append hJ (InB_single hb))
      (by rw [c2]; exact .cons (pos_lt_size hJ) (InB_single hb))
      (by rw [c2, pos_append hJ, size_single, pos_single]; simp [pos, size])]
    rw [c3 _ (by simpa using hlt)]
    rw [List.getElem_map]
    exact hT3 _ (List.getElem_mem _) b hb

theorem set_snoc (J : List ℕ) (b k : ℕ) : (J ++ [b]).set J.length k = J ++ [k] := by
  rw [List.set_append_right _ _ (le_refl _)]; simp

theorem lineThrough_snoc (t : Ten α) (A J : List ℕ) (k b : ℕ) (ht : t.shape = A ++ [k])
    (hJ : J.length = A.length) :
    lineThrough t A.length (J ++ [b]) = (List.range k).map fun b => t.get (J ++ [b]) := by
  unfold lineThrough
  have e : t.shape.getD A.length 0 = k := by rw [ht]; simp [List.getD]
  rw [e]
  apply List.map_congr_left
  intro c _
  rw [← hJ, set_snoc]

/-- **C81 (top-k of lines)**: for every tensor of shape `A ++ [W]` without an empty dimension, if the
function for lines returns `k` values, and `k` positions or none at all, then the results have shape
`A ++ [k]` and through every place their last lines are what the function makes of the operand's. -/
theorem c81_topk_apply [Inhabited α] (fn : ℕ → List α → Option (List α × Option (List α))) (x : Ten α)
    (A : List ℕ) (W k : ℕ) (idx : Bool) (hx : x.shape = A ++ [W]) (hpos : 0 ∉ A ++ [W])
    (hf : ∀ r i, InB i x.shape → ∃ v, fn r (lineThrough x A.length i) = some v ∧ v.1.length = k ∧
      v.2.isSome = idx ∧ ∀ p, v.2 = some p → p.length = k) :
    ∃ out, topkApply fn x = some out ∧ out.length = (if idx then 2 else 1) ∧
      (∀ t ∈ out, t.shape = A ++ [k]) ∧
      ∀ i, InB i x.shape → ∃ r v, fn r (lineThrough x A.length i) = some v ∧
        out.map (lineThrough · A.length i) = v.1 :: v.2.toList := by
  have hW0 : 0 < W := by
    rcases Nat.eq_zero_or_pos W with h | h
    · exfalso; apply hpos; simp [h]
    · exact h
  have hA0 : 0 < size A := size_pos_iff.2 fun h => hpos (by simp [h])
  have hlast : x.shape.getD (x.shape.length - 1) 0 = W := by rw [hx]; simp [List.getD]
  have hN : size x.shape / W = size A := by
    rw [hx, size_append, size_single, Nat.mul_div_cancel _ hW0]
  obtain ⟨r2, q1⟩ := reshape_isSome (t := x) (sh := [size A, W])
    (by rw [hx, size_append]; simp [size])
  obtain ⟨q2, q3⟩ := reshape_spec q1
  let P : ℕ → List ℕ := fun a => ((unflattenIndex a A).getD []) ++ [0]
  have hP : ∀ J, InB J A → P (pos J A) = J ++ [0] := by
    intro J hJ
    show ((unflattenIndex (pos J A) A).getD []) ++ [0] = _
    rw [unflatten_of_InB hJ, Option.getD_some]
  have hlen : ∀ J, InB J A → J.length = A.length := fun J hJ => (InB_iff.1 hJ).1
  have hPin : ∀ a < size A, InB (P a) x.shape := fun a ha => by
    obtain ⟨J, -, h2, h3⟩ := unflattenIndex_spec ha
    rw [← h3, hP J h2, hx]
    exact InB_append h2 (InB_single hW0)
  have hrow : ∀ a < size A, rowVec r2 a W = some (lineThrough x A.length (P a)) := fun a ha => by
    obtain ⟨J, -, h2, h3⟩ := unflattenIndex_spec ha
    rw [rowVec_ok q2 ha, ← h3, hP J h2, lineThrough_snoc x A J W 0 hx (hlen J h2)]
    congr 1
    apply List.map_congr_left
    intro b hb
    have hb := List.mem_range.1 hb
    exact q3 _ _ (.cons (pos_lt_size h2) (InB_single hb))
      (by rw [hx]; exact InB_append h2 (InB_single hb))
      (by rw [hx, pos_append h2, size_single, pos_single]; simp [pos, size])
  let G : ℕ → List α × Option (List α) := fun a =>
    (fn a (lineThrough x A.length (P a))).getD ([], none)
  have hG : ∀ a < size A, fn a (lineThrough x A.length (P a)) = some (G a) ∧ (G a).1.length = k ∧
      (G a).2.isSome = idx ∧ ∀ p, (G a).2 = some p → p.length = k := by
    intro a ha
    obtain ⟨v, v1, v2⟩ := hf a (P a) (hPin a ha)
    have : G a = v := by show Option.getD _ _ = _; rw [v1]; rfl
    rw [this]
    exact ⟨v1, v2⟩
  have e1 : (List.range (size A)).mapM (fun i => do
      let l ← rowVec r2 i W
      fn i l) = some ((List.range (size A)).map G) := by
    apply mapM_some
    intro a ha
    have ha := List.mem_range.1 ha
    rw [hrow a ha]
    exact (hG a ha).1
  have e2 : ((List.range (size A)).map G)[0]? = some (G 0) := by
    simp [hA0]
  have hsetk : x.shape.set (x.shape.length - 1) k = A ++ [k] := by
    rw [hx]; simp
  obtain ⟨v, v1, v2, v3⟩ := assemble ((List.range (size A)).map G) (fun r => some r.1) A k (by simp) hA0
    (by
      intro b hb
      obtain ⟨a, ha, rfl⟩ := List.mem_map.1 hb
      exact ⟨_, rfl, (hG a (List.mem_range.1 ha)).2.1⟩)
  simp only [Option.bind_eq_bind, Option.bind_some] at v1
  -- lines of a result
  have hres : ∀ (t : Ten α) (vec : List α × Option (List α) → Option (List α)),
      t.shape = A ++ [k] → (∀ J b, InB J A → b < k →
        ∃ h : pos J A < ((List.range (size A)).map G).length,
        some (t.get (J ++ [b])) = (vec (((List.range (size A)).map G)[pos J A])).bind
          (fun l => l[b]?)) →
      ∀ J b, InB J A → ∀ l, vec (G (pos J A)) = some l → l.length = k →
        lineThrough t A.length (J ++ [b]) = l := by
    intro t vec ht h J b hJ l hl hk
    rw [lineThrough_snoc t A J k b ht (hlen J hJ)]
    apply List.ext_getElem
    · simp [hk]
    · intro c c1 c2
      simp only [List.length_map, List.length_range] at c1
      obtain ⟨_, h2⟩ := h J c hJ c1
      simp only [List.getElem_map, List.getElem_range] at h2 ⊢
      rw [hl, Option.bind_some, List.getElem?_eq_getElem c2] at h2
      exact Option.some.inj h2
  have hsplit : ∀ i, InB i x.shape → ∃ J b, i = J ++ [b] ∧ InB J A := by
    intro i hi
    rw [hx] at hi
    have hl : i ≠ [] := by
      intro h; have := (InB_iff.1 hi).1; rw [h] at this; simp at this
    have e := List.dropLast_append_getLast hl
    rw [← e] at hi
    exact ⟨_, _, e.symm, (InB_snoc hi).1⟩
  have hline : ∀ J b, InB J A → lineThrough x A.length (J ++ [b]) =
      lineThrough x A.length (P (pos J A)) := by
    intro J b hJ
    rw [hP J hJ, lineThrough_snoc x A J W b hx (hlen J hJ),
      lineThrough_snoc x A J W 0 hx (hlen J hJ)]
  have hidx0 := (hG 0 hA0).2.2.1
  have hne : x.shape ≠ [] := by rw [hx]; simp
  have hk0 : (G 0).1.length = k := (hG 0 hA0).2.1
  cases idx with
  | false =>
    refine ⟨[v], ?_, rfl, by simpa using v2, fun i hi => ?_⟩
    · unfold topkApply
      rw [if_neg hne]
      simp only [hlast, hN, hsetk, Option.bind_eq_bind, q1, Option.bind_some] at e1 ⊢
      rw [e1, Option.bind_some, e2, Option.bind_some, hk0]
      simp only [hidx0, hsetk]
      revert v1
      cases ((List.range (size A)).map G).mapM fun r => (ofVec r.1).reshape [1, k] with
      | none => intro v1; cases v1
      | some two =>
        simp only [Option.bind_some]
        cases Ten.concat0 two with
        | none => intro v1; cases v1
        | some c =>
          simp only [Option.bind_some]
          intro v1
          rw [v1]; rfl
    · obtain ⟨J, b, rfl, hJ⟩ := hsplit i hi
      obtain ⟨g1, g2, g3, g4⟩ := hG (pos J A) (pos_lt_size hJ)
      refine ⟨pos J A, G (pos J A), by rw [hline J b hJ]; exact g1, ?_⟩
      have : (G (pos J A)).2 = none := by
        cases h : (G (pos J A)).2 with
        | none => rfl
        | some _ => rw [h] at g3; cases g3
      rw [this]
      simp [hres v (fun r => some r.1) v2 v3 J b hJ _ rfl g2]
  | true =>
    obtain ⟨u, u1, u2, u3⟩ := assemble ((List.range (size A)).map G) (fun r => r.2) A k (by simp) hA0
      (by
        intro b hb
        obtain ⟨a, ha, rfl⟩ := List.mem_map.1 hb
        obtain ⟨_, _, g3, g4⟩ := hG a (List.mem_range.1 ha)
        obtain ⟨p, hp⟩ := Option.isSome_iff_exists.1 g3
        exact ⟨p, hp, g4 p hp⟩)
    refine ⟨[v, u], ?_, rfl, by simp [v2, u2], fun i hi => ?_⟩
    · unfold topkApply
      rw [if_neg hne]
      simp only [hlast, hN, hsetk, Option.bind_eq_bind, q1, Option.bind_some] at e1 u1 ⊢
      rw [e1, Option.bind_some, e2, Option.bind_some, hk0]
      simp only [hidx0, hsetk, if_true]
      revert v1
      cases ((List.range (size A)).map G).mapM fun r => (ofVec r.1).reshape [1, k] with
      | none => intro v1; cases v1
      | some two =>
        simp only [Option.bind_some]
        cases Ten.concat0 two with
        | none => intro v1; cases v1
        | some c =>
          simp only [Option.bind_some]
          intro v1
          rw [v1, Option.bind_some]
          revert u1
          cases (((List.range (size A)).map G).mapM fun r => r.2.bind fun i =>
              (ofVec i).reshape [1, k]) with
          | none => intro u1; cases u1
          | some two' =>
            simp only [Option.bind_some]
            cases Ten.concat0 two' with
            | none => intro u1; cases u1
            | some c' =>
              simp only [Option.bind_some]
              intro u1
              rw [u1]; rfl
    · obtain ⟨J, b, rfl, hJ⟩ := hsplit i hi
      obtain ⟨g1, g2, g3, g4⟩ := hG (pos J A) (pos_lt_size hJ)
      refine ⟨pos J A, G (pos J A), by rw [hline J b hJ]; exact g1, ?_⟩
      obtain ⟨p, hp⟩ := Option.isSome_iff_exists.1 g3
      rw [hp]
      simp [hres v (fun r => some r.1) v2 v3 J b hJ _ rfl g2,
        hres u (fun r => r.2) u2 u3 J b hJ p hp (g4 p hp)]

/-- **C81 (top-k)**: `TopK` of a secret tensor returns for every line along the last dimension the
`k_hi` best values (and their positions in the line), for all `0 < k_lo ≤ k_hi ≤ W`; `-1` stands for
`k_hi = k_lo`. -/
theorem c81_topk {w : ℕ} (hw : 2 ≤ w) (d : Dir) (valueOnly : Bool)
    (perm : ℕ → (n : ℕ) → Equiv.Perm (Fin n)) (x : Ten (BitVec w)) (A : List ℕ) (W : ℕ)
    (hx : x.shape = A ++ [W]) (hpos : 0 ∉ A ++ [W])
    (hr : ∀ i, InB i x.shape → -(2 ^ (w - 2) : ℤ) ≤ (x.get i).toInt ∧ (x.get i).toInt < 2 ^ (w - 2))
    (kLo kHi k : ℤ) (hk : k = if kHi = -1 then kLo else kHi) (h1 : 0 < kLo) (h2 : kLo ≤ k)
    (h3 : k ≤ W) :
    ∃ out, topK (topkLine d valueOnly perm) kLo kHi valueOnly x = some out ∧
      out.length = (if valueOnly then 1 else 2) ∧ (∀ t ∈ out, t.shape = A ++ [k.toNat]) ∧
      ∀ i, InB i x.shape → ∃ sel : List (Fin (lineThrough x A.length i).length),
        Spec.TopkSel (ValBefore d) (fun j => (lineThrough x A.length i)[j]) kLo.toNat k.toNat sel ∧
        out.map (lineThrough · A.length i) = (sel.map fun j => (lineThrough x A.length i)[j]) ::
          if valueOnly then [] else [sel.map fun j : Fin _ => BitVec.ofNat w j] := by
  have hlen : ∀ i, (lineThrough x A.length i).length = W := by
    intro i
    have : x.shape.getD A.length 0 = W := by rw [hx]; simp [List.getD]
    simp [lineThrough, hx, List.getD]
  have hsel : ∀ r i, InB i x.shape → ∃ sel : List (Fin (lineThrough x A.length i).length),
      topkLine d valueOnly perm kLo k r (lineThrough x A.length i) =
        some (topkResult ⟨valueOnly, false, kLo, k⟩ (fun j => (lineThrough x A.length i)[j]) sel) ∧
      Spec.TopkSel (ValBefore d) (fun j => (lineThrough x A.length i)[j]) kLo.toNat k.toNat sel := by
    intro r i hi
    obtain ⟨sel, s1, s2, -⟩ := c80_topk_select hw d ⟨valueOnly, false, kLo, k⟩
      (perm r (lineThrough x A.length i).length) (fun j => (lineThrough x A.length i)[j])
      (fun _ => 0) (by
        intro j
        have hmem : (lineThrough x A.length i)[j] ∈ lineThrough x A.length i := List.getElem_mem _
        obtain ⟨b, hb, e⟩ := List.mem_map.1 hmem
        dsimp only
        rw [← e]
        apply hr
        rw [hx] at hi hb ⊢
        have hb : b < W := by simpa [List.getD] using List.mem_range.1 hb
        have hl : i ≠ [] := by
          intro h; have := (InB_iff.1 hi).1; rw [h] at this; simp at this
        have e := List.dropLast_append_getLast hl
        rw [← e] at hi ⊢
        obtain ⟨q1, -⟩ := InB_snoc hi
        rw [← (InB_iff.1 q1).1, set_snoc]
        exact InB_append q1 (InB_single hb))
      ⟨h1, h2, by rw [hlen]; exact h3⟩ (2 * (lineThrough x A.length i).length + 2) (le_refl _)
    exact ⟨sel, s1, s2⟩
  obtain ⟨out, o1, o2, o3, o4⟩ := c81_topk_apply (topkLine d valueOnly perm kLo k) x A W k.toNat
    (!valueOnly) hx hpos (by
      intro r i hi
      obtain ⟨sel, s1, s2⟩ := hsel r i hi
      refine ⟨_, s1, by simp [topkResult, s2.length], ?_, ?_⟩
      · cases valueOnly <;> simp [topkResult]
      · intro p hp
        cases valueOnly <;> simp [topkResult] at hp
        rw [← hp]
        simp [s2.length])
  refine ⟨out, ?_, ?_, o3, fun i hi => ?_⟩
  · unfold topK
    have hlast : x.shape.getD (x.shape.length - 1) 0 = W := by rw [hx]; simp [List.getD]
    have h0 : size x.shape ≠ 0 := by
      rw [hx]; exact (size_pos_iff.2 hpos).ne'
    rw [if_neg h0, hlast, if_pos ⟨by omega, h1⟩]
    simp only [← hk]
    rw [if_pos h2]
    exact o1
  · rw [o2]; cases valueOnly <;> rfl
  · obtain ⟨r, v, v1, v2⟩ := o4 i hi
    obtain ⟨sel, s1, s2⟩ := hsel r i hi
    rw [s1] at v1
    refine ⟨sel, s2, ?_⟩
    rw [v2, ← Option.some.inj v1]
    cases valueOnly <;> simp [topkResult]

/-! ## sorting lines -/

theorem valAt_colsOf {w : ℕ} (ls : List (List (BitVec w))) (p k : ℕ) :
    keyInt (rowAt (colsOf ls.length ls) p) k = (recAt ls p).getD k 0 := by
  unfold keyInt valAt rowAt colsOf recAt
  by_cases h : k < ls.length
  · rw [dif_pos h]
    simp [List.getD, List.getElem?_eq_getElem h]
  · rw [dif_neg h]
    simp [List.getD, List.getElem?_eq_none (show ls.length ≤ k by omega)]

/-- the direction as a flag -/
def ascends : Dir → Bool
  | .ascending => true
  | .descending => false

theorem keysBefore_iff {w : ℕ} (ls : List (List (BitVec w))) (d : Dir) (nk p q : ℕ) :
    KeysBefore d nk (rowAt (colsOf ls.length ls) p) (rowAt (colsOf ls.length ls) q) ↔
      RecBefore (ascends d) nk (recAt ls p) (recAt ls q) := by
  unfold KeysBefore RecBefore
  simp only [valAt_colsOf]
  cases d <;> simp [Before, ascends]

/-- the operands of an algorithm on columns that keeps the records and orders them -/
theorem sortedLines_of_cols {w n : ℕ} (ls : List (List (BitVec w))) (d : Dir) (nk : ℕ)
    (c' : Cols ls.length w) (h1 : ∀ o, (c' o).length = n)
    (h2 : (rows n c').Perm (rows n (colsOf ls.length ls)))
    (h3 : ∀ i j, i < j → j < n → ¬ KeysBefore d nk (rowAt c' j) (rowAt c' i)) :
    SortedLines (ascends d) nk false n ls (List.ofFn c') := by
  obtain ⟨σ, s1, s2⟩ := Spu.Lemmas.QuickSort.perm_map_exists
    (fun p : ℕ => rowAt (colsOf ls.length ls) p) h2 (List.range n)
    (Spu.Lemmas.QuickSort.rows_eq_map _ _)
  have hl : σ.length = n := by simpa using s1.length_eq
  have hrow : ∀ (p : ℕ) (hp : p < σ.length), rowAt c' p = rowAt (colsOf ls.length ls) σ[p] := by
    intro p hp
    have : (rows n c')[p]? = (σ.map fun p => rowAt (colsOf ls.length ls) p)[p]? := by rw [s2]
    rw [Spu.Lemmas.QuickSort.rows_eq_map] at this
    simpa [show p < n by omega, hp] using this
  refine ⟨σ, s1, ?_, ?_⟩
  · apply List.ext_getElem
    · simp
    · intro k k1 k2
      simp only [List.length_ofFn] at k1
      simp only [List.getElem_ofFn, List.getElem_map]
      apply List.ext_getElem
      · simp [h1, hl]
      · intro p p1 p2
        have hp : p < σ.length := by rw [h1] at p1; omega
        have := congrFun (hrow p hp) ⟨k, k1⟩
        simp only [rowAt, colsOf] at this
        rw [List.getD, List.getElem?_eq_getElem p1, Option.getD_some] at this
        rw [this]
        simp [List.getD, List.getElem?_eq_getElem k1]
  · rw [List.pairwise_iff_getElem]
    intro i j hi hj hij
    refine ⟨?_, by simp⟩
    rw [← keysBefore_iff, ← hrow i hi, ← hrow j hj]
    exact h3 i j hij (by omega)

theorem sortedLines_weaken {w n : ℕ} {up : Bool} {nk : ℕ} {ins outs : List (List (BitVec w))}
    (h : SortedLines up nk true n ins outs) (stable : Bool) : SortedLines up nk stable n ins outs := by
  obtain ⟨σ, s1, s2, s3⟩ := h
  exact ⟨σ, s1, s2, s3.imp fun ⟨h1, h2⟩ => ⟨h1, fun _ => h2 rfl⟩⟩

/-- the lines are `nk` keys and payloads of length `n` with all keys in the comparable range -/
structure GoodLines {w : ℕ} (nk n : ℕ) (ls : List (List (BitVec w))) : Prop where
  pos : 0 < nk
  le : nk ≤ ls.length
  len : ∀ l ∈ ls, l.length = n
  range : ∀ k < nk, ∀ p < n, -(2 ^ (w - 2) : ℤ) ≤ (recAt ls p).getD k 0 ∧
    (recAt ls p).getD k 0 < 2 ^ (w - 2)

theorem GoodLines.ne {w nk n : ℕ} {ls : List (List (BitVec w))} (h : GoodLines nk n ls) : ls ≠ [] := by
  rintro rfl
  have := h.pos; have := h.le
  simp at this; omega

theorem GoodLines.head {w nk n : ℕ} {ls : List (List (BitVec w))} (h : GoodLines nk n ls) :
    (ls.headD []).length = n := by
  obtain ⟨l, t, rfl⟩ := List.exists_cons_of_ne_nil h.ne
  exact h.len l (by simp)

theorem GoodLines.inRange {w nk n : ℕ} {ls : List (List (BitVec w))} (h : GoodLines nk n ls) :
    ∀ i < n, InRange nk (rowAt (colsOf ls.length ls) i) := by
  intro i hi k hk
  rw [valAt_colsOf]
  exact h.range k hk i hi

theorem GoodLines.cols {w nk n : ℕ} {ls : List (List (BitVec w))} (h : GoodLines nk n ls) :
    ∀ o, (colsOf ls.length ls o).length = n := by
  intro o
  unfold colsOf
  rw [List.getD, List.getElem?_eq_getElem o.2]
  exact h.len _ (List.getElem_mem _)

theorem networkLines_ok {w nk n : ℕ} (hw : 2 ≤ w) {ls : List (List (BitVec w))}
    (h : GoodLines nk n ls) (d : Dir) :
    ∃ out, networkLines d nk ls = some out ∧ SortedLines (ascends d) nk false n ls out := by
  obtain ⟨c', h1, h2, h3, h4⟩ := c32_sort_by_keys hw d nk h.pos (colsOf ls.length ls) h.cols h.inRange
  refine ⟨List.ofFn c', ?_, sortedLines_of_cols ls d nk c' h2 h3 h4⟩
  unfold networkLines
  rw [h.head, h1]; rfl

theorem quickLines_ok {w nk n : ℕ} (hw : 2 ≤ w) {ls : List (List (BitVec w))} (h : GoodLines nk n ls)
    (d : Dir) (thres : ℤ) (ht : 0 ≤ thres) (coins : (n : ℕ) → Coins n) :
    ∃ out, quickLines thres coins d nk ls = some out ∧ SortedLines (ascends d) nk false n ls out := by
  have e := h.head
  unfold quickLines
  rw [e]
  obtain ⟨c', h1, h2, h3, h4⟩ := c80_quick_sort hw thres ht d nk h.pos (coins n).perm (coins n).bits
    (colsOf ls.length ls) h.inRange
  exact ⟨List.ofFn c', by rw [h1]; rfl, sortedLines_of_cols ls d nk c' h2 h3 h4⟩

theorem plainSort_ok {w nk n : ℕ} (hw : 2 ≤ w) {ls : List (List (BitVec w))} (h : GoodLines nk n ls)
    (d : Dir) (std : StdSort) (hstd : StdSortContract std) (stable : Bool) :
    SortedLines (ascends d) nk stable n ls (plainSort std stable d nk ls) := by
  have hiff : ∀ a < n, ∀ b < n, cmpFunc d nk (rowAt (colsOf ls.length ls) a)
      (rowAt (colsOf ls.length ls) b) = true ↔ RecBefore (ascends d) nk (recAt ls a) (recAt ls b) :=
    fun a ha b hb => by
      rw [cmpFunc_iff hw d nk h.pos _ _ (h.inRange a ha) (h.inRange b hb), keysBefore_iff]
  have hiff' : ∀ a < n, ∀ b < n, cmpFunc d nk (rowAt (colsOf ls.length ls) a)
      (rowAt (colsOf ls.length ls) b) = false ↔ ¬ RecBefore (ascends d) nk (recAt ls a) (recAt ls b) :=
    fun a ha b hb => by rw [← hiff a ha b hb, Bool.not_eq_true]
  have hsw : StrictWeak (fun a b => cmpFunc d nk (rowAt (colsOf ls.length ls) a)
      (rowAt (colsOf ls.length ls) b)) (List.range n) := by
    refine ⟨fun a ha => ?_, fun a ha b hb c hc h1 h2 => ?_, fun a ha b hb h1 => ?_⟩
    · have ha := List.mem_range.1 ha
      rw [hiff' a ha a ha, ← keysBefore_iff]
      exact fun hh => keysBefore_asymm hh hh
    · have ha := List.mem_range.1 ha
      have hb := List.mem_range.1 hb
      have hc := List.mem_range.1 hc
      rw [hiff' _ hb _ ha, ← keysBefore_iff] at h1
      rw [hiff' _ hc _ hb, ← keysBefore_iff] at h2
      rw [hiff' _ hc _ ha, ← keysBefore_iff]
      exact keysBefore_trans h1 h2
    · have ha := List.mem_range.1 ha
      have hb := List.mem_range.1 hb
      rw [hiff _ ha _ hb, ← keysBefore_iff] at h1
      rw [hiff' _ hb _ ha, ← keysBefore_iff]
      exact keysBefore_asymm h1
  obtain ⟨s1, s2⟩ := hstd stable _ n hsw
  unfold plainSort
  rw [h.head]
  refine ⟨_, s1, rfl, ?_⟩
  refine (List.Pairwise.imp_of_mem ?_ s2)
  intro a b ha hb hab
  have ha := List.mem_range.1 (s1.subset ha)
  have hb := List.mem_range.1 (s1.subset hb)
  rw [hiff' b hb a ha, hiff' a ha b hb] at hab
  exact hab

/-- the requests that are refused: a stable sort by secret keys without the kernels of radix sort -/
def Refused (s : SortCtx) (pub : ℕ → Bool) (nk : ℕ) (stable : Bool) : Prop :=
  stable = true ∧ (∃ k < nk, pub k = false) ∧
    ¬ (s.randPermM = true ∧ s.permAm = true ∧ s.permAp = true ∧ s.invPermAm = true ∧ s.invPermAp = true)

/-- **C81 (method)**: for every configured method, every set of kernels a protocol offers and all
visibilities of the keys, `simple_sort1d` either refuses (a stable sort by keys that are not all
public, without radix sort) or returns the records in sorted order, stably if requested.  Radix sort
is assumed to sort stably (C33). -/
theorem c81_sort1d {w nk n : ℕ} (hw : 2 ≤ w) (s : SortCtx) (pub : ℕ → Bool) (std : StdSort)
    (hstd : StdSortContract std) (thres : ℤ) (ht : 0 ≤ thres) (coins : (n : ℕ) → Coins n)
    (radix : Dir → ℕ → List (List (BitVec w)) → Option (List (List (BitVec w)))) (d : Dir)
    (stable : Bool) (ls : List (List (BitVec w))) (h : GoodLines nk n ls)
    (hrad : ∃ out, radix d nk ls = some out ∧ SortedLines (ascends d) nk true n ls out) :
    (Refused s pub nk stable ∧
      simpleSort1d s pub std thres coins radix d nk stable ls = none) ∨
    (¬ Refused s pub nk stable ∧
      ∃ out, simpleSort1d s pub std thres coins radix d nk stable ls = some out ∧
        SortedLines (ascends d) nk stable n ls out) := by
  have hchk : ls ≠ [] ∧ (∀ l ∈ ls, l.length = (ls.headD []).length) ∧ 0 < nk ∧ nk ≤ ls.length :=
    ⟨h.ne, fun l hl => by rw [h.head]; exact h.len l hl, h.pos, h.le⟩
  obtain ⟨ro, r1, r2⟩ := hrad
  obtain ⟨qo, q1, q2⟩ := quickLines_ok hw h d thres ht coins
  obtain ⟨no, n1, n2⟩ := networkLines_ok hw h d
  have hcr : checkMethod s .radix = some true ↔ (s.randPermM = true ∧ s.permAm = true ∧
      s.permAp = true ∧ s.invPermAm = true ∧ s.invPermAp = true) := by
    simp [checkMethod, and_assoc]
  unfold simpleSort1d
  rw [if_pos hchk]
  by_cases hall : (List.range nk).all pub = true
  · right
    rw [if_pos hall]
    refine ⟨?_, _, rfl, plainSort_ok hw h d std hstd stable⟩
    rintro ⟨-, ⟨k, hk, e⟩, -⟩
    rw [List.all_eq_true] at hall
    rw [hall k (List.mem_range.2 hk)] at e
    cases e
  · rw [if_neg hall]
    have hex : ∃ k < nk, pub k = false := by
      simpa [List.all_eq_true] using hall
    cases stable with
    | true =>
      rw [if_pos rfl]
      by_cases hr : checkMethod s .radix = some true
      · right
        rw [if_pos hr]
        exact ⟨fun hh => hh.2.2 (hcr.1 hr), ro, r1, r2⟩
      · left
        rw [if_neg hr]
        exact ⟨⟨rfl, hex, fun hh => hr (hcr.2 hh)⟩, rfl⟩
    | false =>
      right
      refine ⟨fun hh => (by cases hh.1), ?_⟩
      rw [if_neg (by simp)]
      by_cases hm : s.method = .default
      · rw [if_pos hm]
        split
        · exact ⟨ro, r1, sortedLines_weaken r2 _⟩
        · split
          · exact ⟨qo, q1, q2⟩
          · exact ⟨no, n1, n2⟩
      · rw [if_neg hm]
        have hsel : ∃ m, selectMethod s s.method = some m ∧ m ≠ .default := by
          unfold selectMethod
          cases e : s.method with
          | default => exact absurd e hm
          | radix =>
            simp only [checkMethod]
            by_cases hb : (s.randPermM && s.permAm && s.permAp && s.invPermAm && s.invPermAp) = true
            · exact ⟨.radix, by simp_all, by simp⟩
            · exact ⟨.network, by simp_all, by simp⟩
          | quick =>
            simp only [checkMethod]
            by_cases hb : (s.randPermM && s.permAm && s.randB) = true
            · exact ⟨.quick, by simp_all, by simp⟩
            · exact ⟨.network, by simp_all, by simp⟩
          | network => exact ⟨.network, by simp [checkMethod], by simp⟩
        obtain ⟨m, m1, m2⟩ := hsel
        rw [m1]
        cases m with
        | default => exact absurd rfl m2
        | radix => exact ⟨ro, r1, sortedLines_weaken r2 _⟩
        | quick => exact ⟨qo, q1, q2⟩
        | network => exact ⟨no, n1, n2⟩

theorem recAt_lineThrough {w : ℕ} {inputs : List (Ten (BitVec w))} {sh : List ℕ} {dim : ℕ}
    (hs : ∀ t ∈ inputs, t.shape = sh) (hd : dim < sh.length) {i : List ℕ} (hi : InB i sh) (k p : ℕ)
    (hk : k < inputs.length) (hp : p < sh.getD dim 0) :
    InB (i.set dim p) sh ∧
    (recAt (inputs.map (lineThrough · dim i)) p).getD k 0 = (inputs[k].get (i.set dim p)).toInt := by
  constructor
  · obtain ⟨i1, i2⟩ := InB_iff.1 hi
    refine InB_iff.2 ⟨by simpa using i1, fun a ha => ?_⟩
    by_cases e : dim = a
    · subst e
      simpa [List.getD, show dim < i.length by omega] using hp
    · simpa [List.getD, List.getElem?_set, e] using i2 a ha
  · have hsh := hs inputs[k] (List.getElem_mem _)
    have hp' : p < sh[dim]?.getD 0 := by simpa [List.getD] using hp
    simp [recAt, List.getD, hk, lineThrough, hsh, hp']

/-- **C81 (sorting along a dimension)**: for every number of operands, every shape without an empty
dimension, every dimension, every configured method and all kernels, visibilities and coins, if the
request is not refused, the result has the operands' shape and through every place its lines are the
operands' lines with their records in sorted order. -/
theorem c81_simple_sort {w nk : ℕ} (hw : 2 ≤ w) (s : SortCtx) (pub : ℕ → Bool) (std : StdSort)
    (hstd : StdSortContract std) (thres : ℤ) (ht : 0 ≤ thres) (coins : ℕ → (n : ℕ) → Coins n)
    (radix : ℕ → Dir → ℕ → List (List (BitVec w)) → Option (List (List (BitVec w)))) (d : Dir)
    (stable : Bool) (inputs : List (Ten (BitVec w))) (sh : List ℕ)
    (hs : ∀ t ∈ inputs, t.shape = sh) (dim : ℕ) (hd : dim < sh.length) (hpos : 0 ∉ sh)
    (hk0 : 0 < nk) (hk : nk ≤ inputs.length)
    (hr : ∀ (k : ℕ) (hk : k < inputs.length), k < nk → ∀ i, InB i sh →
      -(2 ^ (w - 2) : ℤ) ≤ (inputs[k].get i).toInt ∧ (inputs[k].get i).toInt < 2 ^ (w - 2))
    (hrad : ∀ r ls, GoodLines nk (sh.getD dim 0) ls → ∃ out, radix r d nk ls = some out ∧
      SortedLines (ascends d) nk true (sh.getD dim 0) ls out)
    (href : ¬ Refused s pub nk stable) :
    ∃ out, simpleSort s pub std thres coins radix d nk stable inputs dim = some out ∧
      out.length = inputs.length ∧ (∀ t ∈ out, t.shape = sh) ∧
      ∀ i, InB i sh → SortedLines (ascends d) nk stable (sh.getD dim 0)
        (inputs.map (lineThrough · dim i)) (out.map (lineThrough · dim i)) := by
  have hgood : ∀ i, InB i sh → GoodLines nk (sh.getD dim 0) (inputs.map (lineThrough · dim i)) := by
    intro i hi
    refine ⟨hk0, by simpa using hk, fun l hl => ?_, fun k hkn p hp => ?_⟩
    · obtain ⟨t, ht, rfl⟩ := List.mem_map.1 hl
      simp [lineThrough, hs t ht]
    · obtain ⟨e1, e2⟩ := recAt_lineThrough hs hd hi k p (by omega) hp
      rw [e2]
      exact hr k (by omega) hkn _ e1
  have hline : ∀ r i, InB i sh → ∃ out, simpleSort1d s pub std thres (coins r) (radix r) d nk stable
      (inputs.map (lineThrough · dim i)) = some out ∧ SortedLines (ascends d) nk stable (sh.getD dim 0)
        (inputs.map (lineThrough · dim i)) out := by
    intro r i hi
    rcases c81_sort1d hw s pub std hstd thres ht (coins r) (radix r) d stable _ (hgood i hi)
      (hrad r _ (hgood i hi)) with h | h
    · exact absurd h.1 href
    · exact h.2
  have hne : inputs ≠ [] := by
    rintro rfl
    simp at hk; omega
  obtain ⟨out, o1, o2, o3, o4⟩ := c81_permute
    (fun i => simpleSort1d s pub std thres (coins i) (radix i) d nk stable) inputs hne sh hs dim hd hpos
    (by
      intro r i hi
      obtain ⟨o, o1, σ, s1, s2, -⟩ := hline r i hi
      refine ⟨o, o1, by rw [s2]; simp, fun l hl => ?_⟩
      rw [s2] at hl
      obtain ⟨l', -, rfl⟩ := List.mem_map.1 hl
      simpa using s1.length_eq)
  refine ⟨out, o1, o2, o3, fun i hi => ?_⟩
  obtain ⟨r, hr⟩ := o4 i hi
  obtain ⟨o, e1, e2⟩ := hline r i hi
  have : some o = some (out.map (lineThrough · dim i)) := by rw [← e1, ← hr]
  rw [← Option.some.inj this]
  exact e2

/-! ## non-vacuity -/

/-- a sort of indices that keeps the contract of the standard library -/
def stdDemo : StdSort := fun _ lt l =>
  ((List.finRange l.length).insertionSort fun a b =>
    lt b.val a.val = false ∧ (lt a.val b.val = true ∨ a ≤ b)).map Fin.val

theorem stdDemo_ok : StdSortContract stdDemo := by
  intro stable lt n hsw
  unfold stdDemo
  rw [List.length_range]
  have hm : ∀ a : Fin n, a.val ∈ List.range n := fun a => List.mem_range.2 a.2
  have h1 : Std.Total fun a b : Fin n => lt b.val a.val = false ∧ (lt a.val b.val = true ∨ a ≤ b) := by
    refine ⟨fun a b => ?_⟩
    cases e1 : lt a.val b.val with
    | true => left; exact ⟨hsw.asymm _ (hm a) _ (hm b) e1, Or.inl rfl⟩
    | false =>
      cases e2 : lt b.val a.val with
      | true => right; exact ⟨rfl, Or.inl rfl⟩
      | false =>
        rcases le_total a b with h | h
        · left; exact ⟨rfl, Or.inr h⟩
        · right; exact ⟨rfl, Or.inr h⟩
  have h2 : IsTrans (Fin n) fun a b : Fin n =>
      lt b.val a.val = false ∧ (lt a.val b.val = true ∨ a ≤ b) := by
    refine ⟨fun a b c ⟨x1, x2⟩ ⟨y1, y2⟩ => ⟨hsw.negTrans _ (hm a) _ (hm b) _ (hm c) x1 y1, ?_⟩⟩
    cases e : lt a.val c.val with
    | true => exact Or.inl rfl
    | false =>
      right
      have p1 : lt a.val b.val = false := hsw.negTrans _ (hm b) _ (hm c) _ (hm a) y1 e
      have p2 : lt b.val c.val = false := hsw.negTrans _ (hm c) _ (hm a) _ (hm b) e x1
      rw [p1] at x2
      rw [p2] at y2
      have x3 : a ≤ b := by simpa using x2
      have y3 : b ≤ c := by simpa using y2
      exact le_trans x3 y3
  have hp := List.perm_insertionSort
    (fun a b : Fin n => lt b.val a.val = false ∧ (lt a.val b.val = true ∨ a ≤ b)) (List.finRange n)
  have hs := List.pairwise_insertionSort
    (fun a b : Fin n => lt b.val a.val = false ∧ (lt a.val b.val = true ∨ a ≤ b)) (List.finRange n)
  constructor
  · have := hp.map Fin.val
    rwa [List.map_coe_finRange_eq_range] at this
  · rw [List.pairwise_map]
    have hnd := (hp.nodup_iff).2 (List.nodup_finRange n)
    refine (hs.and hnd).imp ?_
    rintro a b ⟨⟨x1, x2⟩, x3⟩
    refine ⟨x1, fun _ e => ?_⟩
    rw [e] at x2
    have x4 : a ≤ b := by simpa using x2
    exact lt_of_le_of_ne x4 (fun h => x3 (Fin.ext h))

/-- two operands of shape (2, 3) -/
def sortDemo : List (Ten (BitVec 8)) :=
  [⟨[2, 3], fun i => [5, 1, 4, 3, 9, 4].getD (pos i [2, 3]) 0⟩,
   ⟨[2, 3], fun i => [10, 11, 12, 13, 14, 15].getD (pos i [2, 3]) 0⟩]

/-- the elements in row-major order -/
def showTen {w : ℕ} (r : Option (List (Ten (BitVec w)))) : Option (List (List ℕ × List ℕ)) :=
  r.map fun l => l.map fun t => (t.shape, (allIdx t.shape).map fun i => (t.get i).toNat)

/-- a context without shuffling kernels -/
def bareCtx : SortCtx := ⟨.default, false, false, false, false, false, false, false⟩

/-- a context for quick sort -/
def quickCtx : SortCtx := ⟨.quick, true, true, false, false, false, true, false⟩

def coinsDemo : ℕ → (n : ℕ) → Coins n := fun _ n => ⟨Fin.revPerm, fun _ _ => true⟩

example : showTen (simpleSort bareCtx (fun _ => false) stdDemo 32 coinsDemo (fun _ _ _ _ => none)
    .ascending 1 false sortDemo 1) =
    some [([2, 3], [1, 4, 5, 3, 4, 9]), ([2, 3], [11, 12, 10, 13, 15, 14])] := by decide +kernel

example : showTen (simpleSort quickCtx (fun _ => false) stdDemo 0 coinsDemo (fun _ _ _ _ => none)
    .descending 1 false sortDemo 0) =
    some [([2, 3], [5, 9, 4, 3, 1, 4]), ([2, 3], [10, 14, 15, 13, 11, 12])] := by decide +kernel

example : showTen (simpleSort bareCtx (fun _ => true) stdDemo 32 coinsDemo (fun _ _ _ _ => none)
    .descending 1 true sortDemo 0) =
    some [([2, 3], [5, 9, 4, 3, 1, 4]), ([2, 3], [10, 14, 12, 13, 11, 15])] := by decide +kernel

example : Refused bareCtx (fun _ => false) 1 true ∧ showTen (simpleSort bareCtx (fun _ => false)
    stdDemo 32 coinsDemo (fun _ _ _ _ => none) .ascending 1 true sortDemo 1) = none :=
  ⟨⟨rfl, ⟨0, by decide, rfl⟩, by simp [bareCtx]⟩, by decide +kernel⟩

example : showTen (topK (topkLine (w := 8) .descending false fun _ _ => Fin.revPerm) 2 (-1) false
    (sortDemo.headD ⟨[], fun _ => 0⟩)) = some [([2, 2], [5, 4, 9, 4]), ([2, 2], [0, 2, 1, 2])] := by
  decide +kernel

end Spu.Props

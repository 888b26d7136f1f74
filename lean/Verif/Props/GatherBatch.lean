import Verif.Props.GatherExpand

set_option autoImplicit false

/-!
# C77: gathers with batching dimensions
-/

namespace Spu.Props
open Spu.Spec Spu.Model Spu.Lemmas Spu.Lemmas.T Spu.Model.Gat Spu.Model.Dyn

variable {α : Type}

theorem vectorLast_spec {g : GatherDims} {si : Ten ℤ} (hle : g.ivd ≤ si.shape.length)
    (hlast : g.ivd + 1 < si.shape.length → g.batchShape si.shape ++ [si.shape.getD g.ivd 0] = si.shape) :
    ∃ t, vectorLast g si = some t ∧ t.shape = g.batchShape si.shape ++ [vecLen g si.shape] ∧
      ∀ b k, InB b (g.batchShape si.shape) → k < vecLen g si.shape → t.get (b ++ [k]) = g.startVec si.shape.length si.get b k := by
  unfold vectorLast
  by_cases hv : g.ivd = si.shape.length
  · obtain ⟨t, t1, t2, t3⟩ := vector_implicit hv
    refine ⟨t, by rw [if_pos hv, t1], t2, fun b k hb hk => ?_⟩
    have : k = 0 := by rw [vecLen, if_neg (by omega)] at hk; omega
    rw [this, t3 b hb]
  · by_cases hl : g.ivd + 1 = si.shape.length
    · obtain ⟨t2, t3⟩ := vector_is_last hl
      exact ⟨si, by rw [if_neg hv, if_pos hl], t2, fun b k hb _ => t3 b k hb⟩
    · obtain ⟨t, t1, t2, t3⟩ := vector_transpose (g := g) (si := si) (by omega)
      refine ⟨t, ?_, t2, fun b k hb _ => t3 b k hb⟩
      rw [if_neg hv, if_neg hl, t1, Option.bind_eq_bind, Option.bind_some, if_pos]
      rw [t2, vecLen, if_pos (by omega)]
      exact hlast (by omega)

theorem movedDim_eq {g : GatherDims} {ish : List ℕ} {e r : ℕ} (hle : g.ivd ≤ ish.length) (he : e < ish.length) (hne : e ≠ g.ivd) :
    movedDim g ish.length r e = if e < g.ivd then e else e - 1 := by
  unfold movedDim
  split_ifs <;> omega

theorem pickLast_spec (f : ℕ → List ℕ → ℤ) (B : List ℕ) (t : Ten ℤ) (b : List ℕ) : ∀ (es : List ℕ) (k : ℕ), k < es.length + t.shape.getLastD 0 →
    pickLast (es.map (fun e => (⟨B ++ [1], f e⟩ : Ten ℤ)) ++ [t]) b k =
      if k < es.length then f (es.getD k 0) (b ++ [0]) else t.get (b ++ [k - es.length]) := by
  intro es
  induction es with
  | nil =>
    intro k hk
    simp only [List.map_nil, List.nil_append, pickLast, List.length_nil] at hk ⊢
    rw [if_pos (by omega)]; simp
  | cons e es ih =>
    intro k hk
    simp only [List.map_cons, List.cons_append, pickLast, List.length_cons] at hk ⊢
    have h1 : (B ++ [1]).getLastD 0 = 1 := by simp
    rw [h1]
    cases k with
    | zero => simp
    | succ k =>
      rw [if_neg (by omega), Nat.add_sub_cancel, ih k (by omega)]
      simp only [Nat.add_lt_add_iff_right, List.getD_cons_succ, Nat.add_sub_add_right]

/-- **C77** (batching dimensions).  The gather without batching dimensions reads the same elements.  `hlast`: the vector dimension is
last or implied, or moving it to the end does not change the shape. -/
theorem c77_unbatch {ty : IntTy} {g : GatherDims} {sh out : List ℕ} {si : Ten ℤ} (h : g.Wf sh si.shape out)
    (hlast : g.ivd + 1 < si.shape.length → g.batchShape si.shape ++ [si.shape.getD g.ivd 0] = si.shape)
    (hw : ∀ d ∈ g.opBatch, ∀ k : ℕ, k < sh.getD d 0 → ty.wrap k = k) :
    ∃ g' si', unbatch ty g si = some (g', si') ∧ g'.opBatch = [] ∧ g'.Wf sh si'.shape out ∧
      g'.sizes = g.sizes ∧ g'.batchShape si'.shape = g.batchShape si.shape ∧
      ∀ o, InB o out → g'.src sh si'.shape.length si'.get o = g.src sh si.shape.length si.get o := by
  obtain ⟨t, t1, t2, t3⟩ := vectorLast_spec h.ivd_le hlast
  set B := g.batchShape si.shape with hB
  set K := vecLen g si.shape with hK
  set mv : ℕ → ℕ := fun e => if e < g.ivd then e else e - 1 with hmv
  have hml : g.startMap.length = K := h.map_len
  have hcomp : g.idxBatch.mapM (fun e => batchIota ty t.shape (movedDim g si.shape.length t.shape.length e)) =
      some (g.idxBatch.map fun e => (⟨B ++ [1], fun o => ty.wrap (o.getD (mv e) 0)⟩ : Ten ℤ)) := by
    refine T.mapM_some _ _ _ fun e he => ?_
    obtain ⟨i1, i2⟩ := h.ibat_lt e he
    obtain ⟨f1, f2⟩ := batchShape_getD g si.shape i1 i2 h.ivd_le
    rw [movedDim_eq h.ivd_le i1 i2, t2]
    rw [← hB] at f1 f2
    change batchIota ty (B ++ [K]) (mv e) = _
    change mv e < B.length at f1
    have hs : (B ++ [K]).set ((B ++ [K]).length - 1) 1 = B ++ [1] := by
      rw [List.set_append_right _ _ (by simp)]; simp
    have hg : ∀ x : ℕ, (B ++ [x]).getD (mv e) 0 = B.getD (mv e) 0 := fun x => by
      simp only [List.getD_eq_getElem?_getD]
      rw [List.getElem?_append_left f1]
    unfold batchIota
    simp only [hs, hg]
    rw [if_pos ⟨by simp; omega, trivial⟩]
    rfl
  have hcl : ∀ ts : List (Ten ℤ), ts = (g.idxBatch.map fun e => (⟨B ++ [1], fun o => ty.wrap (o.getD (mv e) 0)⟩ : Ten ℤ)) ++ [t] →
      concatLast B ts = some ⟨B ++ [g.idxBatch.length + K], fun i => pickLast ts i.dropLast (i.getLastD 0)⟩ := by
    rintro ts rfl
    unfold concatLast
    rw [if_pos]
    · congr 3
      rw [List.map_append, List.sum_append, List.map_map]
      have : ((fun t : Ten ℤ => t.shape.getLastD 0) ∘ fun e => (⟨B ++ [1], fun o => ty.wrap (o.getD (mv e) 0)⟩ : Ten ℤ)) = fun _ => 1 := by
        funext e; simp
      rw [this]
      simp [t2]
    · rw [List.all_eq_true]
      intro x hx
      rcases List.mem_append.1 hx with hx | hx
      · obtain ⟨e, _, rfl⟩ := List.mem_map.1 hx
        simp
      · rw [List.mem_singleton.1 hx, t2]; simp
  have hdl : t.shape.dropLast = B := by rw [t2]; simp
  have hrl : t.shape.length - 1 = B.length := by rw [t2]; simp
  have hall : g.opBatch.all (fun d => decide (g.sizes.getD d 0 = 1)) = true := by
    rw [List.all_eq_true]; intro d hd; simpa using h.bat_one d hd
  have hms : ∀ a, a ∈ (g.collapsed ++ g.opBatch).mergeSort (fun a b => decide (a ≤ b)) ↔ a ∈ g.collapsed ∨ a ∈ g.opBatch := fun a => by
    rw [List.mem_mergeSort, List.mem_append]
  set si2 : Ten ℤ := ⟨B ++ [g.idxBatch.length + K], fun i => pickLast
    ((g.idxBatch.map fun e => (⟨B ++ [1], fun o => ty.wrap (o.getD (mv e) 0)⟩ : Ten ℤ)) ++ [t]) i.dropLast (i.getLastD 0)⟩ with hsi2
  set g' : GatherDims := { offsetDims := g.offsetDims
                           collapsed := (g.collapsed ++ g.opBatch).mergeSort (fun a b => decide (a ≤ b))
                           startMap := g.opBatch ++ g.startMap
                           ivd := t.shape.length - 1
                           sizes := g.sizes } with hg'
  have hkept : g'.kept sh.length = g.kept sh.length := by
    unfold GatherDims.kept others
    refine List.filter_congr fun a _ => ?_
    simp only [hg', hms, List.not_mem_nil, not_false_eq_true, and_true, not_or]
  have hivd : g'.ivd = B.length := hrl
  have hlt : g'.ivd < si2.shape.length := by rw [hivd]; simp [hsi2]
  have hbs : g'.batchShape si2.shape = B := by
    unfold GatherDims.batchShape
    rw [if_pos hlt, hivd, hsi2]
    simp [List.eraseIdx_append_of_length_le]
  have hnd : (g.opBatch ++ g.startMap).Nodup := (List.perm_append_comm.nodup_iff).1 h.map_nodup
  refine ⟨g', si2, ?_, rfl, ?_, rfl, hbs, fun o ho => ?_⟩
  · unfold unbatch
    simp only [t1, Option.bind_eq_bind, Option.bind_some, hcomp, hdl, hcl _ rfl]
    rw [if_pos hall]
    rfl
  · constructor
    · exact h.off_sorted
    · exact h.off_lt
    · intro a ha
      rcases (hms a).1 ha with ha | ha
      · exact h.col_lt a ha
      · exact h.bat_lt a ha
    · simp [hg']
    · simp only [hg', List.append_nil]
      exact (List.mergeSort_perm _ _).nodup_iff.2 h.col_bat
    · simp only [hg', List.append_nil]; exact hnd
    · intro a ha
      rcases List.mem_append.1 ha with ha | ha
      · exact h.bat_lt a ha
      · exact h.map_lt a ha
    · exact hlt.le
    · rw [if_pos hlt, hivd, hsi2]
      simp [hg', h.bat_len, hml]
    · simp [hg']
    · simp [hg']
    · simp [hg']
    · exact h.sizes_fit
    · intro a ha
      rcases (hms a).1 ha with ha | ha
      · exact h.col_one a ha
      · exact h.bat_one a ha
    · simp [hg']
    · rw [hbs]; exact h.out_batch
    · rw [hkept]; exact h.out_offset
  · have hbo := rest_InB h ho
    rw [← hB] at hbo
    have hlb := InB.length hbo
    unfold GatherDims.src
    refine List.map_congr_left fun d hd => ?_
    have hd := List.mem_range.1 hd
    have hsv : ∀ k, k < g.idxBatch.length + K → g'.startVec si2.shape.length si2.get (rest g.offsetDims o) k =
        if k < g.idxBatch.length then ty.wrap ((rest g.offsetDims o ++ [0]).getD (mv (g.idxBatch.getD k 0)) 0)
        else t.get (rest g.offsetDims o ++ [k - g.idxBatch.length]) := by
      intro k hk
      unfold GatherDims.startVec
      rw [if_pos hlt, hivd, ← hlb, List.insertIdx_length_self, hsi2]
      have := pickLast_spec (fun e o => ty.wrap (o.getD (mv e) 0)) B t (rest g.offsetDims o) g.idxBatch k (by rw [t2]; simpa using hk)
      simp only [List.dropLast_concat, List.getLastD_concat]
      exact this
    have hfb' : g'.fullBatch (rest g'.offsetDims o) d = 0 := by unfold GatherDims.fullBatch; rw [if_neg (by simp [hg'])]
    have hfo : g'.fullOffset sh.length o d = g.fullOffset sh.length o d := by
      unfold GatherDims.fullOffset
      rw [hkept]
      have : (d ∈ g'.collapsed ∨ d ∈ g'.opBatch) ↔ (d ∈ g.collapsed ∨ d ∈ g.opBatch) := by
        simp only [hg', hms, List.not_mem_nil, or_false]
      simp only [this]
      rfl
    rw [hfb', hfo, Nat.add_zero]
    congr 1
    change g'.fullStart sh si2.shape.length si2.get (rest g.offsetDims o) d = _
    unfold GatherDims.fullStart
    by_cases hb : d ∈ g.opBatch
    · have hm : d ∉ g.startMap := fun hm => (List.nodup_append.1 h.map_nodup).2.2 d hm d hb rfl
      have hk := List.idxOf_lt_length_of_mem hb
      have hk' : g.opBatch.idxOf d < g.idxBatch.length := by rw [← h.bat_len]; exact hk
      rw [if_pos (show d ∈ g'.startMap from List.mem_append.2 (.inl hb)), if_neg hm]
      have hix : g'.startMap.idxOf d = g.opBatch.idxOf d := List.idxOf_append_of_mem hb
      rw [hix, hsv _ (by omega), if_pos hk', Nat.zero_add]
      unfold GatherDims.fullBatch
      rw [if_pos hb]
      have he : g.idxBatch.getD (g.opBatch.idxOf d) 0 ∈ g.idxBatch := by
        rw [List.getD_eq_getElem?_getD, List.getElem?_eq_getElem hk']; exact List.getElem_mem _
      obtain ⟨e1, e2⟩ := h.ibat_lt _ he
      obtain ⟨f1, f2⟩ := batchShape_getD g si.shape e1 e2 h.ivd_le
      have hx := h.bat_ext _ hk
      have hd' : g.opBatch.getD (g.opBatch.idxOf d) 0 = d := by
        rw [List.getD_eq_getElem?_getD, List.getElem?_eq_getElem hk]; simp
      rw [hd'] at hx
      rw [← hB] at f1 f2
      have hlt' := (T.InB_iff.1 hbo).2 _ f1
      change (rest g.offsetDims o).getD (mv (g.idxBatch.getD (g.opBatch.idxOf d) 0)) 0 < _ at hlt'
      change mv (g.idxBatch.getD (g.opBatch.idxOf d) 0) < B.length at f1
      have hap : (rest g.offsetDims o ++ [0]).getD (mv (g.idxBatch.getD (g.opBatch.idxOf d) 0)) 0 =
          (rest g.offsetDims o).getD (mv (g.idxBatch.getD (g.opBatch.idxOf d) 0)) 0 := by
        simp only [List.getD_eq_getElem?_getD (l := rest g.offsetDims o), List.getD_eq_getElem?_getD (l := rest g.offsetDims o ++ [0])]
        rw [List.getElem?_append_left (by omega)]
      rw [hap]
      have hlt2 : (rest g.offsetDims o).getD (mv (g.idxBatch.getD (g.opBatch.idxOf d) 0)) 0 < sh.getD d 0 := by
        rw [hx, ← f2]; exact hlt'
      rw [hw d hb _ hlt2]
      have h1 : g'.sizes.getD d 0 = 1 := h.bat_one d hb
      rw [h1]
      change clampTo _ _ = (rest g.offsetDims o).getD (mv (g.idxBatch.getD (g.opBatch.idxOf d) 0)) 0
      unfold clampTo
      omega
    · have hfb : g.fullBatch (rest g.offsetDims o) d = 0 := by unfold GatherDims.fullBatch; rw [if_neg hb]
      rw [hfb, Nat.add_zero]
      by_cases hm : d ∈ g.startMap
      · have hk := List.idxOf_lt_length_of_mem hm
        rw [if_pos (show d ∈ g'.startMap from List.mem_append.2 (.inr hm)), if_pos hm]
        have hix : g'.startMap.idxOf d = g.opBatch.length + g.startMap.idxOf d := List.idxOf_append_of_notMem hb
        rw [hix, hsv _ (by rw [h.bat_len]; omega), if_neg (by rw [h.bat_len]; omega), h.bat_len, Nat.add_sub_cancel_left,
          t3 _ _ hbo (by omega)]
      · rw [if_neg (show d ∉ g'.startMap from fun hx => (List.mem_append.1 hx).elim hb hm), if_neg hm]

end Spu.Props

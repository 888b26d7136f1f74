import Verif.Lemmas.Gather
import Verif.Props.DynSlice

set_option autoImplicit false

/-!
# C77: gather
-/

namespace Spu.Props
open Spu.Spec Spu.Model Spu.Lemmas Spu.Lemmas.T Spu.Model.Gat

variable {α : Type}

theorem sliceFits_getD {sh ss : List ℕ} (h : SliceFits sh ss) (d : ℕ) : ss.getD d 0 ≤ sh.getD d 0 := by
  induction h generalizing d with
  | nil => simp
  | cons h1 _ ih =>
    cases d with
    | zero => simpa using h1
    | succ d => simpa using ih d

/-- the extents of the loop over the batch dimensions -/
theorem batchCounts_getD (g : GatherDims) (out : List ℕ) {i : ℕ} (hi : i < out.length) :
    (batchCounts g out).getD i 0 = if i ∈ g.offsetDims then 1 else out.getD i 0 := getD_mapRange _ _ hi

theorem offsetCounts_wf {g : GatherDims} {sh ish out : List ℕ} (h : g.Wf sh ish out) (hb : g.opBatch = []) :
    offsetCounts g (List.range out.length) 0 = (List.range out.length).map fun i => if i ∈ g.offsetDims then out.getD i 0 else 1 := by
  have hk : g.kept sh.length = (List.range' 0 sh.length).filter fun d => decide (d ∉ g.collapsed) := by
    rw [GatherDims.kept, others, hb, List.range_eq_range']
    simp
  have ho := filter_mem_range h.off_sorted h.off_lt
  have hlen : g.offsetDims.length = (g.kept sh.length).length := by
    have := congrArg List.length h.out_offset
    simpa [permuted] using this
  rw [offsetCounts_eq g _ 0 sh.length (by rw [← sliceFits_length h.sizes_fit]; omega) (by rw [ho, ← hk, hlen]), assign_eq, ho, ← hk]
  congr 1
  exact h.out_offset.symm

theorem batchToInput_spec (g : GatherDims) (si : Ten ℤ) (rank : ℕ) (out b : List ℕ) (hv : g.ivd < si.shape.length)
    (hm : ∀ d ∈ g.startMap, g.startMap.idxOf d < si.shape.getD g.ivd 0) (hl : b.length = out.length)
    (hb : InB (rest g.offsetDims b) (si.shape.eraseIdx g.ivd)) :
    batchToInput g si rank out b = some ((List.range rank).map fun d =>
      if d ∈ g.startMap then si.get ((rest g.offsetDims b).insertIdx g.ivd (g.startMap.idxOf d)) else 0) := by
  have hlen : (rest g.offsetDims b).length + 1 = si.shape.length := by
    rw [InB.length hb, List.length_eraseIdx_of_lt hv]; omega
  have hfl : ((List.range out.length).filter fun i => decide (i ∉ g.offsetDims)).length = (rest g.offsetDims b).length := by
    rw [rest, hl, List.length_map]
  obtain ⟨buf, b1, b2, b3, _⟩ := propagate_spec g b (List.range out.length) 0 (List.replicate si.shape.length 0)
    (by rw [hfl, List.length_replicate]; omega) (by rw [List.length_replicate]; exact hv)
  rw [if_pos (Nat.zero_le _)] at b1
  have hset : ∀ k, buf.set g.ivd k = (rest g.offsetDims b).insertIdx g.ivd k := fun k => by
    refine set_eq_insert (by rw [b2, List.length_replicate, hlen]) (by omega) fun j hj => ?_
    have := b3 j (by rw [hfl]; exact hj)
    rw [Nat.zero_add] at this
    rw [this, rest, hl]
    rw [rest, hl, List.length_map] at hj
    simp only [List.getD_eq_getElem?_getD, List.getElem?_map, List.getElem?_eq_getElem hj, Option.map_some, Option.getD_some]
  have hf : fetchVec g si buf = some ((List.range (si.shape.getD g.ivd 0)).map fun k =>
      si.get ((rest g.offsetDims b).insertIdx g.ivd k)) := by
    unfold fetchVec
    rw [if_pos hv]
    refine T.mapM_some _ _ _ fun k hk => ?_
    rw [hset, if_pos ((inBounds_iff _ _).2 (InB_insertIdx hv hb (List.mem_range.1 hk)))]
  unfold batchToInput
  simp only [b1, hf, Option.bind_eq_bind, Option.bind_some]
  refine congrArg some (List.map_congr_left fun d _ => ?_)
  by_cases hd : d ∈ g.startMap
  · rw [if_neg (by have := List.idxOf_lt_length_of_mem hd; omega), if_pos hd, getD_mapRange _ _ (hm d hd)]
  · rw [if_pos (List.idxOf_eq_length hd), if_neg hd]

theorem offset_ext {g : GatherDims} {sh ish out : List ℕ} (h : g.Wf sh ish out) {d : ℕ} (hd : d < sh.length)
    (hc : d ∉ g.collapsed) (hb : d ∉ g.opBatch) :
    g.offsetDims.getD ((g.kept sh.length).idxOf d) 0 ∈ g.offsetDims ∧
      out.getD (g.offsetDims.getD ((g.kept sh.length).idxOf d) 0) 0 = g.sizes.getD d 0 := by
  have hk : d ∈ g.kept sh.length := by simp [GatherDims.kept, others, hd, hc, hb]
  have hlt := List.idxOf_lt_length_of_mem hk
  have hlen : g.offsetDims.length = (g.kept sh.length).length := by
    have := congrArg List.length h.out_offset
    simpa [permuted] using this
  have hlt' : (g.kept sh.length).idxOf d < g.offsetDims.length := by omega
  have e := congrArg (fun l => l.getD ((g.kept sh.length).idxOf d) 0) h.out_offset
  simp only [permuted, List.getD_eq_getElem?_getD, List.getElem?_map, List.getElem?_eq_getElem hlt, List.getElem?_eq_getElem hlt',
    Option.map_some, Option.getD_some, List.getElem_idxOf] at e
  refine ⟨?_, ?_⟩
  · rw [List.getD_eq_getElem?_getD, List.getElem?_eq_getElem hlt']; exact List.getElem_mem _
  · simp only [List.getD_eq_getElem?_getD, List.getElem?_eq_getElem hlt', Option.getD_some]
    exact e

theorem rest_InB {g : GatherDims} {sh ish out : List ℕ} (h : g.Wf sh ish out) {o : List ℕ} (ho : InB o out) :
    InB (rest g.offsetDims o) (g.batchShape ish) := by
  rw [← h.out_batch, rest_eq, rest_eq, InB.length ho]
  refine InB_permuted ho fun a ha => ?_
  have := List.mem_filter.1 ha
  exact List.mem_range.1 this.1

theorem batchShape_getD (g : GatherDims) (ish : List ℕ) {e : ℕ} (he : e < ish.length) (hne : e ≠ g.ivd) (hle : g.ivd ≤ ish.length) :
    (if e < g.ivd then e else e - 1) < (g.batchShape ish).length ∧
      (g.batchShape ish).getD (if e < g.ivd then e else e - 1) 0 = ish.getD e 0 := by
  unfold GatherDims.batchShape
  by_cases hv : g.ivd < ish.length
  · rw [if_pos hv]
    refine ⟨by rw [List.length_eraseIdx_of_lt hv]; split_ifs <;> omega, ?_⟩
    rw [List.getD_eq_getElem?_getD, List.getD_eq_getElem?_getD, List.getElem?_eraseIdx]
    by_cases h : e < g.ivd
    · simp [h]
    · simp only [h, if_false]
      rw [if_neg (by omega), show e - 1 + 1 = e by omega]
  · rw [if_neg hv, if_pos (by omega)]
    exact ⟨he, rfl⟩

/-- the source of an element is in bounds -/
theorem src_InB {g : GatherDims} {sh ish out : List ℕ} (h : g.Wf sh ish out) (idx : List ℕ → ℤ) {o : List ℕ} (ho : InB o out) :
    InB (g.src sh ish.length idx o) sh := by
  rw [T.InB_iff]
  refine ⟨by simp [GatherDims.src], fun d hd => ?_⟩
  unfold GatherDims.src
  rw [getD_mapRange _ _ hd]
  have hfit := sliceFits_getD h.sizes_fit d
  have hs : g.fullStart sh ish.length idx (rest g.offsetDims o) d ≤ sh.getD d 0 - g.sizes.getD d 0 := by
    unfold GatherDims.fullStart clampTo
    split_ifs
    · omega
    · omega
  by_cases hb : d ∈ g.opBatch
  · have hm : d ∉ g.startMap := fun hm => (List.nodup_append.1 h.map_nodup).2.2 d hm d hb rfl
    have h1 : g.fullStart sh ish.length idx (rest g.offsetDims o) d = 0 := by unfold GatherDims.fullStart; rw [if_neg hm]
    have h2 : g.fullOffset sh.length o d = 0 := by unfold GatherDims.fullOffset; rw [if_pos (.inr hb)]
    rw [h1, h2]
    unfold GatherDims.fullBatch
    rw [if_pos hb]
    have hk := List.idxOf_lt_length_of_mem hb
    have hk' : g.opBatch.idxOf d < g.idxBatch.length := by rw [← h.bat_len]; exact hk
    have he : g.idxBatch.getD (g.opBatch.idxOf d) 0 ∈ g.idxBatch := by
      rw [List.getD_eq_getElem?_getD, List.getElem?_eq_getElem hk']; exact List.getElem_mem _
    obtain ⟨e1, e2⟩ := h.ibat_lt _ he
    obtain ⟨f1, f2⟩ := batchShape_getD g ish e1 e2 h.ivd_le
    have hx := h.bat_ext _ hk
    have hd' : g.opBatch.getD (g.opBatch.idxOf d) 0 = d := by
      rw [List.getD_eq_getElem?_getD, List.getElem?_eq_getElem hk]; simp
    rw [hd'] at hx
    have := (T.InB_iff.1 (rest_InB h ho)).2 _ f1
    simp only
    omega
  · have h2 : g.fullBatch (rest g.offsetDims o) d = 0 := by unfold GatherDims.fullBatch; rw [if_neg hb]
    rw [h2]
    by_cases hc : d ∈ g.collapsed
    · have h3 : g.fullOffset sh.length o d = 0 := by unfold GatherDims.fullOffset; rw [if_pos (.inl hc)]
      have := h.col_one d hc
      omega
    · obtain ⟨e1, e2⟩ := offset_ext h hd hc hb
      have h3 : g.fullOffset sh.length o d = o.getD (g.offsetDims.getD ((g.kept sh.length).idxOf d) 0) 0 := by
        unfold GatherDims.fullOffset; rw [if_neg (by simp [hc, hb])]
      have := (T.InB_iff.1 ho).2 _ (h.off_lt _ e1)
      omega

/-- the start indices as the kernel reads them -/
theorem gi_spec {g : GatherDims} {sh ish out : List ℕ} (h : g.Wf sh ish out) {si : Ten ℤ} (hsi : si.shape = ish) :
    ∃ si', (if si.shape.length = g.ivd then si.reshape (si.shape ++ [1]) else some si) = some si' ∧
      ∀ b, b.length = out.length → InB (rest g.offsetDims b) (g.batchShape ish) →
        batchToInput g si' sh.length out b = some ((List.range sh.length).map fun d =>
          if d ∈ g.startMap then g.startVec ish.length si.get (rest g.offsetDims b) (g.startMap.idxOf d) else 0) := by
  have hle := h.ivd_le
  have hml := h.map_len
  have hidx : ∀ d ∈ g.startMap, g.startMap.idxOf d < g.startMap.length := fun d hd => List.idxOf_lt_length_of_mem hd
  by_cases hv : g.ivd < ish.length
  · refine ⟨si, by rw [if_neg (by rw [hsi]; omega)], fun b hl hb => ?_⟩
    rw [if_pos hv] at hml
    rw [GatherDims.batchShape, if_pos hv] at hb
    rw [batchToInput_spec g si sh.length out b (by rw [hsi]; exact hv) (fun d hd => by rw [hsi, ← hml]; exact hidx d hd) hl
      (by rw [hsi]; exact hb)]
    simp only [GatherDims.startVec, hv, if_true]
  · rw [if_neg hv] at hml
    have he : g.ivd = ish.length := by omega
    obtain ⟨r, hr⟩ := reshape_isSome (t := si) (sh := ish ++ [1]) (by rw [hsi, T.size_append]; simp [size])
    obtain ⟨r1, r2⟩ := reshape_spec hr
    refine ⟨r, by rw [if_pos (by rw [hsi, he]), hsi, hr], fun b hl hb => ?_⟩
    rw [GatherDims.batchShape, if_neg hv] at hb
    have hei : (ish ++ [1]).eraseIdx g.ivd = ish := by
      rw [he, List.eraseIdx_append_of_length_le le_rfl]; simp
    have hge : (ish ++ [1]).getD g.ivd 0 = 1 := by rw [he]; simp
    rw [batchToInput_spec g r sh.length out b (by rw [r1, he]; simp) (fun d hd => by
      rw [r1, hge, ← hml]; exact hidx d hd) hl (by rw [r1, hei]; exact hb)]
    refine congrArg some (List.map_congr_left fun d _ => ?_)
    by_cases hd : d ∈ g.startMap
    · rw [if_pos hd, if_pos hd, GatherDims.startVec, if_neg hv]
      have h0 : g.startMap.idxOf d = 0 := by have := hidx d hd; omega
      have hlen := InB.length hb
      rw [h0, he, ← hlen, List.insertIdx_length_self]
      refine r2 _ _ (T.InB_append hb (.cons (by omega) .nil)) (by rw [hsi]; exact hb) ?_
      rw [hsi, T.pos_append hb]
      simp [pos, size]
    · rw [if_neg hd, if_neg hd]

theorem dto_getD {g : GatherDims} {sh ish out : List ℕ} (h : g.Wf sh ish out) (hb : g.opBatch = []) :
    ∃ dto, dimToOutput g (windowToOutput g out) (List.range sh.length) 0 = some dto ∧
      ∀ d, d < sh.length → dto.getD d none =
        if d ∈ g.collapsed then none else some (g.offsetDims.getD ((g.kept sh.length).idxOf d) 0) := by
  have hk : g.kept sh.length = (List.range sh.length).filter fun d => decide (d ∉ g.collapsed) := by
    rw [GatherDims.kept, others, hb]
    simp
  have hw : windowToOutput g out = g.offsetDims := filter_mem_range h.off_sorted h.off_lt
  have hlen : g.offsetDims.length = (g.kept sh.length).length := by
    have := congrArg List.length h.out_offset
    simpa [permuted] using this
  obtain ⟨l, l1, l2⟩ := dimToOutput_spec g g.offsetDims (List.range sh.length) 0 List.nodup_range (by rw [← hk]; omega)
  refine ⟨l, by rw [hw, l1], fun d hd => ?_⟩
  rw [l2, getD_mapRange _ _ hd, ← hk, Nat.zero_add]

/-- **C77** (kernel).  `Gather` returns the elements that the specification names, wherever the start indices point; every element it
reads is inside of the operand.  `junk` is what the result held before. -/
theorem c77_gather {g : GatherDims} {out : List ℕ} (op : Ten α) (si : Ten ℤ) (junk : List ℕ → α)
    (h : g.Wf op.shape si.shape out) (hb : g.opBatch = []) (hs : 0 < size op.shape) (ho : 0 < size out) :
    ∃ r, gather g op si out junk = some r ∧ r.shape = out ∧
      ∀ o, InB o out → InB (g.src op.shape si.shape.length si.get o) op.shape ∧
        r.get o = op.get (g.src op.shape si.shape.length si.get o) := by
  obtain ⟨si', s1, s2⟩ := gi_spec h rfl
  obtain ⟨dto, d1, d2⟩ := dto_getD h hb
  have h0 := T.size_pos_iff.1 ho
  have hout : ∀ i, i < out.length → 0 < out.getD i 0 := fun i hi => by
    rw [List.getD_eq_getElem?_getD, List.getElem?_eq_getElem hi]
    have := List.getElem_mem hi
    exact Nat.pos_of_ne_zero fun e => h0 (by rw [← e]; exact this)
  have hbc : 0 < size (batchCounts g out) := by
    rw [T.size_pos_iff]
    intro hm
    obtain ⟨i, hi, e⟩ := List.mem_map.1 hm
    have := hout i (List.mem_range.1 hi)
    split_ifs at e
    omega
  have hoc : 0 < size ((List.range out.length).map fun i => if i ∈ g.offsetDims then out.getD i 0 else 1) := by
    rw [T.size_pos_iff]
    intro hm
    obtain ⟨i, hi, e⟩ := List.mem_map.1 hm
    have := hout i (List.mem_range.1 hi)
    split_ifs at e
    omega
  -- an element
  have key : ∀ b, InB b (batchCounts g out) → ∀ w,
      InB w ((List.range out.length).map fun i => if i ∈ g.offsetDims then out.getD i 0 else 1) →
      InB (List.zipWith (· + ·) b w) out ∧ rest g.offsetDims (List.zipWith (· + ·) b w) = rest g.offsetDims b ∧
      ∀ d ∈ g.offsetDims, (List.zipWith (· + ·) b w).getD d 0 = w.getD d 0 := by
    intro b hbb w hw
    obtain ⟨b1, b2⟩ := T.InB_iff.1 hbb
    obtain ⟨w1, w2⟩ := T.InB_iff.1 hw
    rw [show (batchCounts g out).length = out.length by simp [batchCounts]] at b1 b2
    rw [List.length_map, List.length_range] at w1 w2
    have hlen : b.length = w.length := by omega
    refine ⟨T.InB_iff.2 ⟨by rw [List.length_zipWith]; omega, fun a ha => ?_⟩, ?_, fun d hd => ?_⟩
    · have x1 := b2 a ha
      have x2 := w2 a ha
      rw [batchCounts_getD g out ha] at x1
      rw [getD_mapRange _ _ ha] at x2
      rw [getD_zipAdd hlen]
      split_ifs at x1 x2 <;> omega
    · unfold rest
      rw [show (List.zipWith (· + ·) b w).length = b.length by rw [List.length_zipWith]; omega]
      refine List.map_congr_left fun a ha => ?_
      obtain ⟨a1, a2⟩ := List.mem_filter.1 ha
      have a1 := List.mem_range.1 a1
      have a2 : a ∉ g.offsetDims := by simpa using a2
      have x2 := w2 a (by omega)
      rw [getD_mapRange _ _ (by omega), if_neg a2] at x2
      rw [getD_zipAdd hlen]; omega
    · have x1 := b2 d (h.off_lt d hd)
      rw [batchCounts_getD g out (h.off_lt d hd), if_pos hd] at x1
      rw [getD_zipAdd hlen]; omega
  set bc := batchCounts g out with hbcd
  set oc := (List.range out.length).map fun i => if i ∈ g.offsetDims then out.getD i 0 else 1 with hocd
  set val : List ℕ → α := fun o => op.get (g.src op.shape si.shape.length si.get o) with hval
  set gi : List ℕ → List ℤ := fun b => (List.range op.shape.length).map fun d =>
    if d ∈ g.startMap then g.startVec si.shape.length si.get (rest g.offsetDims b) (g.startMap.idxOf d) else 0 with hgi
  have hin : ∀ b, InB b bc → ∀ w, InB w oc → inputIndex op.shape out dto (gi b) w =
      (g.src op.shape si.shape.length si.get (List.zipWith (· + ·) b w)).map fun (k : ℕ) => (k : ℤ) := by
    intro b hbb w hw
    obtain ⟨k1, k2, k3⟩ := key b hbb w hw
    unfold inputIndex GatherDims.src
    rw [List.map_map]
    refine List.map_congr_left fun d hd => ?_
    have hd := List.mem_range.1 hd
    have hnb : d ∉ g.opBatch := by simp [hb]
    have hfit := sliceFits_getD h.sizes_fit d
    simp only [d2 d hd, hgi, getD_mapRange _ _ hd, Function.comp_apply, k2]
    have hfb : g.fullBatch (rest g.offsetDims b) d = 0 := by unfold GatherDims.fullBatch; rw [if_neg hnb]
    rw [hfb]
    have hst : ∀ (e : ℕ), e = g.sizes.getD d 0 →
        min ((op.shape.getD d 0 : ℤ) - e) (max 0 (if d ∈ g.startMap then
          g.startVec si.shape.length si.get (rest g.offsetDims b) (g.startMap.idxOf d) else 0)) =
        (g.fullStart op.shape si.shape.length si.get (rest g.offsetDims b) d : ℤ) := by
      rintro e rfl
      unfold GatherDims.fullStart clampTo
      split_ifs
      · omega
      · omega
    by_cases hc : d ∈ g.collapsed
    · simp only [hc, if_true]
      rw [hst 1 (h.col_one d hc).symm]
      unfold GatherDims.fullOffset
      rw [if_pos (.inl hc)]
      simp
    · obtain ⟨e1, e2⟩ := offset_ext h hd hc hnb
      simp only [hc, if_false]
      rw [hst _ e2]
      unfold GatherDims.fullOffset
      rw [if_neg (by simp [hc, hnb]), k3 _ e1]
      push_cast
      ring
  have hcopy : ∀ b, InB b bc → ∀ w, InB w oc → ∀ r, copyOne op out dto (gi b) b r w =
      some fun i => if i = List.zipWith (· + ·) b w then val (List.zipWith (· + ·) b w) else r i := by
    intro b hbb w hw r
    obtain ⟨k1, _, _⟩ := key b hbb w hw
    have hI := src_InB h si.get k1
    unfold copyOne
    simp only [hin b hbb w hw]
    have hm : ((g.src op.shape si.shape.length si.get (List.zipWith (· + ·) b w)).map fun (k : ℕ) => (k : ℤ)).map Int.toNat =
        g.src op.shape si.shape.length si.get (List.zipWith (· + ·) b w) := by
      rw [List.map_map]; simp [Function.comp_def]
    rw [hm, if_pos ⟨(inBounds_iff _ _).2 k1, by simp, (inBounds_iff _ _).2 hI⟩]
  have hinner : ∀ b ∈ allIdx bc, ∀ r : List ℕ → α, ∃ r', (do
        let gi ← batchToInput g si' op.shape.length out b
        (visit oc (numel oc) (List.replicate oc.length 0)).foldlM (copyOne op out dto gi b) r) = some r' ∧
      (∀ o, (∃ w ∈ allIdx oc, o = List.zipWith (· + ·) b w) → r' o = val o) ∧
      ∀ o, (¬ ∃ w ∈ allIdx oc, o = List.zipWith (· + ·) b w) → r' o = r o := by
    intro b hbm r
    have hbb := mem_allIdx.1 hbm
    obtain ⟨k1, k2, _⟩ := key b hbb (List.replicate oc.length 0) (InB_zeros hoc)
    have hlb : b.length = out.length := by rw [InB.length hbb, hbcd]; simp [batchCounts]
    rw [s2 b hlb (by rw [← k2]; exact rest_InB h k1), Option.bind_eq_bind, Option.bind_some, visit_eq hoc]
    refine foldlM_cover _ (fun w o => o = List.zipWith (· + ·) b w) val _ (fun w hw r => ?_) r
    refine ⟨_, hcopy b hbb w (mem_allIdx.1 hw) r, ?_, ?_⟩
    · rintro o rfl; simp
    · intro o ho; simp [ho]
  obtain ⟨r, r1, r2, _⟩ := foldlM_cover _ _ val (allIdx bc) hinner junk
  refine ⟨⟨out, r⟩, ?_, rfl, fun o hoo => ⟨src_InB h si.get hoo, r2 o ?_⟩⟩
  · unfold gather
    rw [if_neg (by omega), s1]
    simp only [Option.bind_eq_bind, Option.bind_some, d1]
    rw [offsetCounts_wf h hb, ← hbcd, ← hocd, visit_eq hbc]
    simp only [Option.bind_eq_bind] at r1
    rw [r1]
    rfl
  · obtain ⟨o1, o2⟩ := T.InB_iff.1 hoo
    refine ⟨(List.range out.length).map fun i => if i ∈ g.offsetDims then 0 else o.getD i 0, mem_allIdx.2 ?_,
      (List.range out.length).map fun i => if i ∈ g.offsetDims then o.getD i 0 else 0, mem_allIdx.2 ?_, ?_⟩
    · refine T.InB_iff.2 ⟨by simp [hbcd, batchCounts], fun a ha => ?_⟩
      have ha : a < out.length := by simpa [hbcd, batchCounts] using ha
      rw [hbcd, batchCounts_getD g out ha, getD_mapRange _ _ ha]
      have := o2 a ha
      split_ifs <;> omega
    · refine T.InB_iff.2 ⟨by simp [hocd], fun a ha => ?_⟩
      have ha : a < out.length := by simpa [hocd] using ha
      rw [hocd, getD_mapRange _ _ ha, getD_mapRange _ _ ha]
      have := o2 a ha
      split_ifs <;> omega
    · apply List.ext_getElem
      · simp [o1]
      · intro a a1 a2
        have : o[a] = o.getD a 0 := by rw [List.getD_eq_getElem?_getD, List.getElem?_eq_getElem a1]; rfl
        simp only [List.getElem_zipWith, List.getElem_map, List.getElem_range, this]
        split_ifs <;> omega

end Spu.Props

import Verif.Props.GatherBatch

set_option autoImplicit false

/-!
# C77: the simplification of gathers
-/

namespace Spu.Props
open Spu.Spec Spu.Model Spu.Lemmas Spu.Lemmas.T Spu.Model.Gat Spu.Model.Dyn Spu.Model.RW

variable {α : Type}

theorem subset_axes {m : List ℕ} {n : ℕ} (hn : m.Nodup) (hl : ∀ a ∈ m, a < n) :
    (m ++ keptAxes m n).Perm (List.range n) := by
  rw [List.perm_ext_iff_of_nodup _ List.nodup_range]
  · intro a
    simp only [keptAxes, List.mem_append, List.mem_filter, List.mem_range, decide_eq_true_eq]
    constructor
    · rintro (h | h)
      · exact hl a h
      · exact h.1
    · intro h
      by_cases ha : a ∈ m
      · exact .inl ha
      · exact .inr ⟨h, ha⟩
  · refine List.nodup_append.2 ⟨hn, List.nodup_range.filter _, ?_⟩
    intro a ha b hb e
    simp only [keptAxes, List.mem_filter, decide_eq_true_eq] at hb
    exact hb.2 (e ▸ ha)

theorem gather_rank {g : GatherDims} {sh ish out : List ℕ} (h : g.Wf sh ish out) (hb : g.opBatch = []) :
    g.collapsed.length + g.offsetDims.length = sh.length := by
  have hnd : g.collapsed.Nodup := by have := h.col_bat; rw [hb, List.append_nil] at this; exact this
  have hp := (subset_axes hnd h.col_lt).length_eq
  have hlen : g.offsetDims.length = (g.kept sh.length).length := by
    have := congrArg List.length h.out_offset
    simpa [permuted] using this
  have hk : g.kept sh.length = keptAxes g.collapsed sh.length := by
    rw [GatherDims.kept, others, hb, keptAxes]; simp
  rw [List.length_append, List.length_range] at hp
  rw [hlen, hk, hp]

theorem sliceFits_permuted {sh ss : List ℕ} (h : SliceFits sh ss) (P : List ℕ) : SliceFits (permuted P sh) (permuted P ss) := by
  induction P with
  | nil => exact .nil
  | cons a P ih => exact .cons (sliceFits_getD h a) ih

theorem idxOf_succ (P : List ℕ) (a : ℕ) : (P.map (· + 1)).idxOf (a + 1) = P.idxOf a := by
  induction P with
  | nil => rfl
  | cons x xs ih =>
    rw [List.map_cons, List.idxOf_cons, List.idxOf_cons, ih]
    by_cases h : x = a
    · simp [h]
    · simp [h]

/-- the permutation with a leading dimension in front -/
theorem lead_perm {P : List ℕ} {n : ℕ} (hp : P.Perm (List.range n)) : (0 :: P.map (· + 1)).Perm (List.range (n + 1)) ∧
    0 :: (Con.inversePerm P).map (· + 1) = Con.inversePerm (0 :: P.map (· + 1)) := by
  refine ⟨?_, ?_⟩
  · rw [List.range_succ_eq_map]
    exact (hp.map _).cons 0
  · unfold Con.inversePerm
    rw [List.length_cons, List.length_map, List.range_succ_eq_map, List.map_cons, List.map_map, List.map_map]
    congr 1
    refine List.map_congr_left fun a _ => ?_
    simp only [Function.comp_apply, Nat.succ_eq_add_one]
    rw [List.idxOf_cons_ne _ (by omega), idxOf_succ]

theorem permuted_lead (P : List ℕ) (x : ℕ) (w : List ℕ) : permuted (0 :: P.map (· + 1)) (x :: w) = x :: permuted P w := by
  simp [permuted, Function.comp_def]

theorem rest_lead (dims : List ℕ) (x : ℕ) (w : List ℕ) : rest (dims.map (· + 1)) (x :: w) = x :: rest dims w := by
  rw [rest_cons, if_neg (by simp)]
  have : ((dims.map (· + 1)).filter (0 < ·)).map Nat.pred = dims := by
    rw [List.filter_eq_self.2 (by simp), List.map_map]
    simp [Function.comp_def]
  rw [this]
  rfl

theorem rest_all_dims (w : List ℕ) : rest (List.range w.length) w = [] := by
  unfold rest
  rw [List.filter_eq_nil_iff.2]
  · rfl
  · intro a ha; simpa using ha

theorem permuted_range_all {w : List ℕ} {n : ℕ} (h : w.length = n) : permuted (List.range n) w = w := by
  subst h; exact map_range_getD w

/-- **C77** (simplification).  The simplified gather is well-formed and simplified, and whatever computes it correctly, the reshapes
and transpositions after it make it the original gather. -/
theorem c77_simplify {g : GatherDims} {op : Ten α} {si : Ten ℤ} {out : List ℕ} (h : g.Wf op.shape si.shape out)
    (hb : g.opBatch = []) :
    ∃ g1 op1 si1 out1, simplifyPre g op si = some (g1, op1, si1, out1) ∧ g1.opBatch = [] ∧ g1.Wf op1.shape si1.shape out1 ∧
      (op.shape ≠ [] → isSimplified g1 si1.shape = true) ∧
      (∃ P : List ℕ, P.Perm (List.range op.shape.length) ∧ op1.shape = permuted P op.shape ∧ g1.sizes = permuted P g.sizes) ∧
      out1 = size (g.batchShape si.shape) :: g1.sizes ∧ si1.shape = [size (g.batchShape si.shape), g.startMap.length] ∧ g1.ivd = 1 ∧
      ∀ r : Ten α, r.shape = out1 →
        (∀ o, InB o out1 → r.get o = op1.get (g1.src op1.shape si1.shape.length si1.get o)) →
        ∃ z, simplifyPost g si.shape r = some z ∧ z.shape = out ∧
          ∀ o, InB o out → z.get o = op.get (g.src op.shape si.shape.length si.get o) := by
  set n := op.shape.length with hn
  have hrank := gather_rank h hb
  rw [← hn] at hrank
  have hsl := sliceFits_length h.sizes_fit
  rw [← hn] at hsl
  have hmn : g.startMap.Nodup := (List.nodup_append.1 h.map_nodup).1
  have hP : (operandPerm g.startMap n).Perm (List.range n) := subset_axes hmn h.map_lt
  set P := operandPerm g.startMap n with hPd
  obtain ⟨p1, p2, p3⟩ := perm_facts hP
  have hml : g.startMap.length = vecLen g si.shape := h.map_len
  set K := g.startMap.length with hK
  have hKn : K ≤ n := by
    have : P.length = K + _ := List.length_append
    omega
  obtain ⟨op1, o1, o2, o3⟩ := transpose_spec (perm := P) op p1 p2 (fun a ha => (p3 a).1 ha)
  obtain ⟨si1, s1, s2, s3⟩ := matrixIndices_spec (g := g) (si := si) h.ivd_le
  rw [← hml] at s2 s3
  set B := g.batchShape si.shape with hB
  set S := permuted P g.sizes with hS
  have hSl : S.length = n := by rw [hS, permuted, List.length_map, p1]
  set g1 : GatherDims := { offsetDims := (List.range n).map (· + 1)
                           collapsed := []
                           startMap := List.range K
                           ivd := 1
                           sizes := S } with hg1
  have hr1 : ∀ x w, w.length = n → rest g1.offsetDims (x :: w) = [x] := by
    intro x w hw
    change rest ((List.range n).map (· + 1)) (x :: w) = [x]
    rw [rest_lead, ← hw, rest_all_dims]
  have hp1 : ∀ x w, w.length = n → permuted g1.offsetDims (x :: w) = w := by
    intro x w hw
    change permuted ((List.range n).map (· + 1)) (x :: w) = w
    have := permuted_range_all hw
    simpa [permuted, Function.comp_def] using this
  have hk1 : g1.kept n = List.range n := by
    rw [GatherDims.kept, others]; simp [hg1]
  have hol : op1.shape.length = n := by rw [o2, permuted, List.length_map, p1]
  have hwf : g1.Wf op1.shape si1.shape (size B :: S) := by
    constructor
    · simp only [hg1, List.pairwise_map]
      exact List.pairwise_lt_range.imp fun hx => by omega
    · intro a ha
      obtain ⟨b, hb', rfl⟩ := List.mem_map.1 ha
      have := List.mem_range.1 hb'
      simp [hSl]; omega
    · simp [hg1]
    · simp [hg1]
    · simp [hg1]
    · simp only [hg1, List.append_nil]; exact List.nodup_range
    · intro a ha
      have := List.mem_range.1 ha
      rw [hol]; omega
    · rw [s2]; simp [hg1]
    · rw [s2]; simp [hg1]
    · simp [hg1]
    · simp [hg1]
    · simp [hg1]
    · rw [o2]; exact sliceFits_permuted h.sizes_fit P
    · simp [hg1]
    · simp [hg1]
    · rw [hr1 _ _ hSl, GatherDims.batchShape, s2]; simp [hg1]
    · rw [hp1 _ _ hSl, hol, hk1]
      exact (permuted_range_all hSl).symm
  -- the source of an element of the new gather
  have hsrc : ∀ o, InB o out → g1.src op1.shape si1.shape.length si1.get
      (pos (rest g.offsetDims o) B :: permuted P ((List.range n).map fun d => g.fullOffset n o d)) =
        permuted P (g.src op.shape si.shape.length si.get o) := by
    intro o ho
    have hbo := rest_InB h ho
    rw [← hB] at hbo
    unfold GatherDims.src
    rw [hol]
    apply List.ext_getElem
    · simp [permuted, p1]
    · intro d d1 d2
      rw [List.length_map, List.length_range] at d1
      have hdP : d < P.length := by omega
      have hPd' : P[d] < n := (p3 _).1 (List.getElem_mem _)
      simp only [permuted, List.getElem_map, List.getElem_range]
      rw [getD_mapRange _ _ hPd', hr1 _ _ (by simp [p1])]
      have hgP : ∀ l : List ℕ, (permuted P l).getD d 0 = l.getD P[d] 0 := fun l => by
        rw [permuted, List.getD_eq_getElem?_getD, List.getElem?_map, List.getElem?_eq_getElem hdP]; rfl
      have hfb : ∀ b, g.fullBatch b P[d] = 0 := fun b => by unfold GatherDims.fullBatch; rw [if_neg (by simp [hb])]
      have hfb1 : ∀ b, g1.fullBatch b d = 0 := fun b => by unfold GatherDims.fullBatch; rw [if_neg (by simp [hg1])]
      rw [hfb, hfb1]
      have hfo : g1.fullOffset n (pos (rest g.offsetDims o) B :: permuted P ((List.range n).map fun d => g.fullOffset n o d)) d =
          g.fullOffset n o P[d] := by
        unfold GatherDims.fullOffset
        rw [if_neg (by simp [hg1]), hk1]
        have e1 : (List.range n).idxOf d = d := by
          have := List.nodup_range (n := n) |>.idxOf_getElem d (by simpa using d1)
          simpa using this
        have e2 : g1.offsetDims.getD d 0 = d + 1 := by
          simp only [hg1]; exact getD_mapRange _ _ d1
        rw [e1, e2, List.getD_cons_succ, hgP, getD_mapRange _ _ hPd']
      change _ + 0 + g1.fullOffset n (pos (rest g.offsetDims o) B :: permuted P ((List.range n).map fun d => g.fullOffset n o d)) d = _
      rw [hfo]
      congr 2
      unfold GatherDims.fullStart
      by_cases hd : d < K
      · have hm : P[d] = g.startMap[d] := List.getElem_append_left hd
        have hin : P[d] ∈ g.startMap := by rw [hm]; exact List.getElem_mem _
        have hix : g.startMap.idxOf P[d] = d := by rw [hm]; exact hmn.idxOf_getElem d hd
        have e1 : (List.range K).idxOf d = d := by
          have := List.nodup_range (n := K) |>.idxOf_getElem d (by simpa using hd)
          simpa using this
        rw [if_pos (show d ∈ g1.startMap from List.mem_range.2 hd), if_pos hin, hix, o2, hgP]
        change clampTo (_ - (permuted P g.sizes).getD d 0) (g1.startVec _ _ _ ((List.range K).idxOf d)) = _
        rw [hgP, e1]
        congr 1
        unfold GatherDims.startVec
        rw [if_pos (show g1.ivd < si1.shape.length by rw [s2]; simp [hg1])]
        change si1.get (List.insertIdx [pos (rest g.offsetDims o) B] 1 d) = _
        have := s3 _ d hbo hd
        unfold GatherDims.startVec at this
        rw [← this]
        rfl
      · have hnm : P[d] ∉ g.startMap := by
          have : P[d] = (keptAxes g.startMap n)[d - K]'(by
            have : P.length = K + (keptAxes g.startMap n).length := List.length_append
            omega) := List.getElem_append_right (by omega)
          rw [this]
          have hmem := List.getElem_mem (l := keptAxes g.startMap n) (n := d - K) (by
            have : P.length = K + (keptAxes g.startMap n).length := List.length_append
            omega)
          have := (List.mem_filter.1 hmem).2
          simpa using this
        rw [if_neg (show d ∉ g1.startMap from fun hx => hd (List.mem_range.1 hx)), if_neg hnm]
  refine ⟨g1, op1, si1, size B :: S, ?_, rfl, hwf, fun hne => ?_, ⟨P, hP, o2, rfl⟩, rfl, s2, rfl, fun r hr hget => ?_⟩
  · unfold simplifyPre
    simp only [hrank, ← hPd, o1, s1, Option.bind_eq_bind, Option.bind_some]
    rw [s2]
    rfl
  · have hn0 : n ≠ 0 := by rw [hn]; simpa using hne
    unfold isSimplified
    simp only [decide_eq_true_eq]
    refine ⟨by rw [s2]; rfl, rfl, by simp [hg1], rfl, ?_, ?_⟩
    · obtain ⟨k, hk⟩ : ∃ k, n = k + 1 := ⟨n - 1, by omega⟩
      simp [hg1, hk, List.range_succ_eq_map]
    · obtain ⟨k, hk⟩ : ∃ k, n = k + 1 := ⟨n - 1, by omega⟩
      simp [hg1, hk, List.range_succ]
  · obtain ⟨l1, l2⟩ := lead_perm hP
    obtain ⟨i1, i2, i3⟩ := inversePerm_facts l1
    obtain ⟨q1, q2, q3⟩ := perm_facts l1
    have hrl : r.shape.length = n + 1 := by rw [hr]; simp [hSl]
    obtain ⟨t, t1, t2, t3⟩ := transpose_spec (perm := Con.inversePerm (0 :: P.map (· + 1))) r (by rw [i1, hrl]) i2
      (fun a ha => by rw [hrl]; exact (i3 a).1 ha)
    have t2' : t.shape = size B :: g.sizes := by
      rw [t2, hr, permuted_inversePerm, hS, ← permuted_lead]
      exact unperm_permuted (fun a ha => (q3 a).2 (by omega)) (by rw [q1]; simp [hsl])
    obtain ⟨e, e1, e2, e3⟩ := elide_spec t (dims := g.collapsed.map (· + 1)) (by
      rw [t2']
      intro a ha _
      obtain ⟨b, hb', rfl⟩ := List.mem_map.1 ha
      simpa using h.col_one b hb')
    rw [t2', rest_lead] at e2
    set C := rest g.collapsed g.sizes with hC
    have hco : C = permuted g.offsetDims out := by
      rw [h.out_offset, hC, rest, hsl, GatherDims.kept, others, hb]
      simp [permuted, hn]
    obtain ⟨f, f1⟩ := reshape_isSome (t := e) (sh := B ++ C) (by rw [e2, T.size_append]; simp [size])
    obtain ⟨f2, f3⟩ := reshape_spec f1
    obtain ⟨z, z1, z2, z3⟩ := final_spec f h.off_sorted h.off_lt (by rw [f2, h.out_batch, hco])
    have hBl : B.length = out.length - g.offsetDims.length ∧ B.length + g.offsetDims.length = out.length := by
      have hp := (subset_axes (m := g.offsetDims) (h.off_sorted.imp fun hx => Nat.ne_of_lt hx) h.off_lt).length_eq
      have : B = rest g.offsetDims out := h.out_batch.symm
      rw [List.length_append, List.length_range] at hp
      have hBl : B.length = (keptAxes g.offsetDims out.length).length := by rw [this, rest_eq, permuted, List.length_map]
      omega
    refine ⟨z, ?_, z2, fun o ho => ?_⟩
    · unfold simplifyPost
      simp only [hrank, ← hPd, l2, t1, Option.bind_eq_bind, Option.bind_some, e1, batchBounds_eq h.ivd_le, ← hB]
      rw [e2, List.tail_cons, f1, Option.bind_some, hBl.2, hBl.1, z1]
    · obtain ⟨u1, u2, u3⟩ := offset_place h hb ho
      rw [← hn] at u1 u2
      have hbo := rest_InB h ho
      rw [← hB] at hbo
      have hu := rest_InB' (dims := g.collapsed) u1
      have hpl := pos_lt_size hbo
      set w := (List.range n).map fun d => g.fullOffset n o d with hw
      have hwl : w.length = n := by simp [hw]
      have x1 : f.get (rest g.offsetDims o ++ permuted g.offsetDims o) = e.get (pos (rest g.offsetDims o) B :: rest g.collapsed w) := by
        rw [← u2]
        refine f3 _ _ (T.InB_append hbo hu) (by rw [e2]; exact .cons hpl hu) ?_
        rw [T.pos_append hbo, e2]
        simp [pos]
      have x2 : e.get (pos (rest g.offsetDims o) B :: rest g.collapsed w) = t.get (pos (rest g.offsetDims o) B :: w) := by
        rw [← rest_lead]
        exact e3 _ (by rw [t2']; exact .cons hpl u1)
      have x3 : t.get (pos (rest g.offsetDims o) B :: w) = r.get (pos (rest g.offsetDims o) B :: permuted P w) := by
        rw [t3, placed_inversePerm l1 (by simp [hwl]), permuted_lead]
      rw [z3 o ho, x1, x2, x3, hget _ (.cons hpl (by
        rw [hS]
        exact InB_permuted u1 fun a ha => by rw [hsl]; exact (p3 a).1 ha)), hsrc o ho, o3, placed_eq]
      congr 1
      exact unperm_permuted (fun a ha => (p3 a).2 (by omega)) (by simp [GatherDims.src, p1, hn])

theorem mem_permuted {P l : List ℕ} (hP : P.Perm (List.range l.length)) {x : ℕ} : x ∈ permuted P l ↔ x ∈ l := by
  unfold permuted
  rw [(hP.map fun a => l.getD a 0).mem_iff, map_range_getD]

theorem permuted_inj {P l l' : List ℕ} {n : ℕ} (hP : P.Perm (List.range n)) (h1 : l.length = n) (h2 : l'.length = n)
    (e : permuted P l = permuted P l') : l = l' := by
  obtain ⟨p1, p2, p3⟩ := perm_facts hP
  rw [← unperm_permuted (perm := P) (i := l) (fun a ha => (p3 a).2 (by omega)) (by omega), e,
    unperm_permuted (fun a ha => (p3 a).2 (by omega)) (by omega)]

end Spu.Props

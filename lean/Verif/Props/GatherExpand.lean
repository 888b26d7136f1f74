import Verif.Lemmas.GatherExpand

set_option autoImplicit false

/-!
# C77: how gathers are rewritten
-/

namespace Spu.Props
open Spu.Spec Spu.Model Spu.Lemmas Spu.Lemmas.T Spu.Model.Gat Spu.Model.Dyn

variable {α : Type}

/-- the number of components of an index vector -/
def vecLen (g : GatherDims) (ish : List ℕ) : ℕ := if g.ivd < ish.length then ish.getD g.ivd 0 else 1

theorem batchBounds_eq {g : GatherDims} {ish : List ℕ} (h : g.ivd ≤ ish.length) : batchBounds g.ivd ish = g.batchShape ish := by
  unfold batchBounds GatherDims.batchShape
  by_cases hv : g.ivd < ish.length
  · rw [if_pos hv, rest_one _ _ hv]
  · rw [if_neg hv, List.filter_eq_self.2 (fun a ha => by have := List.mem_range.1 ha; simp; omega), map_range_getD]

/-- the transposition that makes the vector dimension last -/
theorem vector_transpose {g : GatherDims} {si : Ten ℤ} (hv : g.ivd < si.shape.length) :
    ∃ t, si.transpose (lastPerm si.shape.length g.ivd) = some t ∧ t.shape = g.batchShape si.shape ++ [vecLen g si.shape] ∧
      ∀ b k, InB b (g.batchShape si.shape) → t.get (b ++ [k]) = g.startVec si.shape.length si.get b k := by
  obtain ⟨h1, h2, h3⟩ := perm_facts (lastPerm_perm hv)
  obtain ⟨t, t1, t2, t3⟩ := transpose_spec (perm := lastPerm si.shape.length g.ivd) si h1 h2 (fun a ha => (h3 a).1 ha)
  refine ⟨t, t1, ?_, fun b k hb => ?_⟩
  · rw [t2, permuted_lastPerm hv, GatherDims.batchShape, if_pos hv, vecLen, if_pos hv]
  · have hlb := InB.length hb
    rw [GatherDims.batchShape, if_pos hv, List.length_eraseIdx_of_lt hv] at hlb
    rw [t3, placed_lastPerm (by omega) (by omega), GatherDims.startVec, if_pos hv]

theorem vector_is_last {g : GatherDims} {si : Ten ℤ} (hv : g.ivd + 1 = si.shape.length) :
    si.shape = g.batchShape si.shape ++ [vecLen g si.shape] ∧
      ∀ b k, InB b (g.batchShape si.shape) → si.get (b ++ [k]) = g.startVec si.shape.length si.get b k := by
  have hv' : g.ivd < si.shape.length := by omega
  refine ⟨?_, fun b k hb => ?_⟩
  · rw [GatherDims.batchShape, if_pos hv', vecLen, if_pos hv', List.getD_eq_getElem?_getD, List.getElem?_eq_getElem hv']
    have h2 : g.ivd = si.shape.length - 1 := by omega
    have hne : si.shape ≠ [] := by rintro e; rw [e] at hv'; simp at hv'
    have : si.shape[g.ivd] = si.shape.getLast hne := by
      rw [List.getLast_eq_getElem]; congr 1
    rw [Option.getD_some, this, h2, List.eraseIdx_length_sub_one, List.dropLast_append_getLast]
  · have hlb := InB.length hb
    rw [GatherDims.batchShape, if_pos hv', List.length_eraseIdx_of_lt hv'] at hlb
    rw [GatherDims.startVec, if_pos hv', show g.ivd = b.length by omega, List.insertIdx_length_self]

theorem vector_implicit {g : GatherDims} {si : Ten ℤ} (hv : g.ivd = si.shape.length) :
    ∃ t, si.reshape (si.shape ++ [1]) = some t ∧ t.shape = g.batchShape si.shape ++ [vecLen g si.shape] ∧
      ∀ b, InB b (g.batchShape si.shape) → t.get (b ++ [0]) = g.startVec si.shape.length si.get b 0 := by
  obtain ⟨r, hr⟩ := reshape_isSome (t := si) (sh := si.shape ++ [1]) (by rw [T.size_append]; simp [size])
  obtain ⟨r1, r2⟩ := reshape_spec hr
  have hn : ¬ g.ivd < si.shape.length := by omega
  refine ⟨r, hr, by rw [r1, GatherDims.batchShape, if_neg hn, vecLen, if_neg hn], fun b hb => ?_⟩
  rw [GatherDims.batchShape, if_neg hn] at hb
  rw [GatherDims.startVec, if_neg hn]
  refine r2 _ _ (T.InB_append hb (.cons (by omega) .nil)) hb ?_
  rw [T.pos_append hb]
  simp [pos, size]

/-- start indices with their vector dimension last, as a matrix -/
theorem as_matrix {B : List ℕ} {K : ℕ} {t : Ten ℤ} (ht : t.shape = B ++ [K]) :
    ∃ r, t.reshape [size t.shape.dropLast, t.shape.getLastD 0] = some r ∧ r.shape = [size B, K] ∧
      ∀ b k, InB b B → k < K → r.get [pos b B, k] = t.get (b ++ [k]) := by
  have e1 : t.shape.dropLast = B := by rw [ht]; simp
  have e2 : t.shape.getLastD 0 = K := by rw [ht]; simp
  rw [e1, e2]
  obtain ⟨r, hr⟩ := reshape_isSome (t := t) (sh := [size B, K]) (by rw [ht, T.size_append]; simp [size])
  obtain ⟨r1, r2⟩ := reshape_spec hr
  refine ⟨r, hr, r1, fun b k hb hk => r2 _ _ (.cons (pos_lt_size hb) (.cons hk .nil)) ?_ ?_⟩
  · rw [ht]; exact T.InB_append hb (.cons hk .nil)
  · rw [ht, T.pos_append hb]; simp [pos, size]

theorem matrixIndices_spec {g : GatherDims} {si : Ten ℤ} (hle : g.ivd ≤ si.shape.length) :
    ∃ t, matrixIndices g si = some t ∧ t.shape = [size (g.batchShape si.shape), vecLen g si.shape] ∧
      ∀ b k, InB b (g.batchShape si.shape) → k < vecLen g si.shape →
        t.get [pos b (g.batchShape si.shape), k] = g.startVec si.shape.length si.get b k := by
  unfold matrixIndices
  by_cases hv : g.ivd = si.shape.length
  · obtain ⟨t, t1, t2, t3⟩ := vector_implicit hv
    obtain ⟨r, r1, r2, r3⟩ := as_matrix t2
    refine ⟨r, by rw [if_pos hv, t1]; exact r1, r2, fun b k hb hk => ?_⟩
    rw [r3 b k hb hk]
    have : k = 0 := by rw [vecLen, if_neg (by omega)] at hk; omega
    subst this
    exact t3 b hb
  · obtain ⟨t, t1, t2, t3⟩ := vector_transpose (g := g) (si := si) (by omega)
    obtain ⟨r, r1, r2, r3⟩ := as_matrix t2
    exact ⟨r, by rw [if_neg hv, t1]; exact r1, r2, fun b k hb hk => by rw [r3 b k hb hk, t3 b k hb]⟩

/-- the forms of the canonical start indices -/
theorem canonicalIndices_spec {g : GatherDims} {si : Ten ℤ} (hle : g.ivd ≤ si.shape.length) :
    ∃ t, canonicalIndices g si = some t ∧
      (g.ivd < si.shape.length → t.shape = [size (g.batchShape si.shape), vecLen g si.shape] ∧
          ∀ b k, InB b (g.batchShape si.shape) → k < vecLen g si.shape →
            t.get [pos b (g.batchShape si.shape), k] = g.startVec si.shape.length si.get b k) ∧
      (g.ivd = si.shape.length → t.shape = [size (g.batchShape si.shape)] ∧
          ∀ b, InB b (g.batchShape si.shape) → t.get [pos b (g.batchShape si.shape)] = g.startVec si.shape.length si.get b 0) := by
  unfold canonicalIndices
  by_cases hv : g.ivd = si.shape.length
  · have hn : ¬ g.ivd < si.shape.length := by omega
    have hsz : (if si.shape.length = 0 then [1] else [size si.shape]) = [size si.shape] := by
      split_ifs with h
      · rw [List.length_eq_zero_iff.1 h]; rfl
      · rfl
    rw [if_pos hv, hsz, GatherDims.batchShape, if_neg hn]
    obtain ⟨r, hr⟩ := reshape_isSome (t := si) (sh := [size si.shape]) (by simp [size])
    obtain ⟨r1, r2⟩ := reshape_spec hr
    refine ⟨r, hr, fun h => absurd h hn, fun _ => ⟨r1, fun b hb => ?_⟩⟩
    rw [GatherDims.startVec, if_neg hn]
    exact r2 _ _ (.cons (pos_lt_size hb) .nil) hb (by simp [pos, size])
  · have hlt : g.ivd < si.shape.length := by omega
    rw [if_neg hv]
    have key : ∀ t : Ten ℤ, t.shape = g.batchShape si.shape ++ [vecLen g si.shape] →
        size t.shape.dropLast :: t.shape.drop (t.shape.length - 1) = [size t.shape.dropLast, t.shape.getLastD 0] := by
      intro t ht; rw [ht]; simp
    by_cases hl : g.ivd + 1 = si.shape.length
    · obtain ⟨t2, t3⟩ := vector_is_last hl
      obtain ⟨r, r1, r2, r3⟩ := as_matrix t2
      refine ⟨r, ?_, fun _ => ⟨r2, fun b k hb hk => by rw [r3 b k hb hk, t3 b k hb]⟩, fun h => absurd h hv⟩
      rw [if_pos hl, Option.bind_eq_bind, Option.bind_some, key si t2, r1]
    · obtain ⟨t, t1, t2, t3⟩ := vector_transpose hlt
      obtain ⟨r, r1, r2, r3⟩ := as_matrix t2
      refine ⟨r, ?_, fun _ => ⟨r2, fun b k hb hk => by rw [r3 b k hb hk, t3 b k hb]⟩, fun h => absurd h hv⟩
      rw [if_neg hl, t1, Option.bind_eq_bind, Option.bind_some, key t t2, r1]

theorem sliceFits_refl (l : List ℕ) : SliceFits l l := by
  induction l with
  | nil => exact .nil
  | cons d ds ih => exact .cons le_rfl ih

theorem dynStart_zeros (l : List ℕ) : dynStart l l (List.replicate l.length 0) = List.replicate l.length 0 := by
  induction l with
  | nil => rfl
  | cons d ds ih =>
    simp only [List.length_cons, List.replicate_succ, dynStart, ih]
    simp [clampTo]

theorem shift_zeros (o : List ℕ) : shift (List.replicate o.length 0) o = o := by
  induction o with
  | nil => rfl
  | cons d ds ih =>
    simp only [List.length_cons, List.replicate_succ, shift, List.zipWith_cons_cons, Nat.zero_add] at ih ⊢
    rw [ih]

theorem clampTo_row {n N : ℕ} (h : n < N) : clampTo (N - 1) (n : ℤ) = n := by unfold clampTo; omega

/-- a row of the start indices -/
theorem index_vector {oram : Bool} {ty : IntTy} {ci : Ten ℤ} {N K n : ℕ} (hn : n < N) :
    (ci.shape = [N, K] → ∃ iv, ((dynamicSlice oram ty ci [1, ci.shape.getD 1 0] [⟨false, n⟩, ⟨false, 0⟩]).bind fun t => elide t [0]) =
      some iv ∧ iv.shape = [K] ∧ ∀ k, k < K → iv.get [k] = ci.get [n, k]) ∧
    (ci.shape = [N] → ∃ iv, dynamicSlice oram ty ci [1] [⟨false, n⟩] = some iv ∧ iv.shape = [1] ∧ iv.get [0] = ci.get [n]) := by
  refine ⟨fun hs => ?_, fun hs => ?_⟩
  · have hk : ci.shape.getD 1 0 = K := by rw [hs]; rfl
    rw [hk]
    obtain ⟨t, t1, t2, t3⟩ := c76_dynamicSlice (oram := oram) (ty := ty) (op := ci) (sizes := [1, K])
      (starts := [⟨false, n⟩, ⟨false, 0⟩]) (by rw [hs]; exact .cons (by omega) (.cons le_rfl .nil)) rfl (by simp) (by simp)
    obtain ⟨r, r1, r2, r3⟩ := elide_spec t (dims := [0]) (by rw [t2]; simp)
    refine ⟨r, by rw [t1]; exact r1, by rw [r2, t2]; rfl, fun k hk => ?_⟩
    have := r3 [0, k] (by rw [t2]; exact .cons (by omega) (.cons hk .nil))
    rw [show rest [0] [0, k] = [k] from rfl] at this
    rw [this, t3 _ (.cons (by omega) (.cons hk .nil)), hs]
    congr 1
    simp only [List.map_cons, List.map_nil, dynStart, shift, List.zipWith_cons_cons, List.zipWith_nil_left, clampTo_row hn]
    simp [clampTo]
  · obtain ⟨t, t1, t2, t3⟩ := c76_dynamicSlice (oram := oram) (ty := ty) (op := ci) (sizes := [1])
      (starts := [⟨false, n⟩]) (by rw [hs]; exact .cons (by omega) .nil) rfl (by simp) (by simp)
    refine ⟨t, t1, t2, ?_⟩
    rw [t3 _ (.cons (by omega) .nil), hs]
    congr 1
    simp only [List.map_cons, List.map_nil, dynStart, shift, List.zipWith_cons_cons, List.zipWith_nil_left, clampTo_row hn]
    simp

/-- the index vector in operand space -/
theorem expandVector_spec {g : GatherDims} {iv : Ten ℤ} (rank : ℕ) (h : ∀ d ∈ g.startMap, g.startMap.idxOf d < iv.shape.getD 0 0) :
    expandVector g rank iv = some ((List.range rank).map fun d =>
      ⟨true, if d ∈ g.startMap then iv.get [g.startMap.idxOf d] else 0⟩) := by
  unfold expandVector
  refine T.mapM_some _ _ _ fun d _ => ?_
  by_cases hd : d ∈ g.startMap
  · have := List.idxOf_lt_length_of_mem hd
    simp only [ne_eq, show ¬ g.startMap.idxOf d = g.startMap.length by omega, not_false_eq_true, if_true, hd, h d hd]
  · have := List.idxOf_eq_length hd
    simp only [ne_eq, this, not_true, if_false, hd]

variable {R : Type} [CommRing R]

/-- one iteration -/
theorem loopBody_spec {oram : Bool} {ty : IntTy} {g : GatherDims} {op : Ten R} {ci : Ten ℤ} {N n : ℕ} (cv : ℕ → ℤ)
    (hn : n < N) (hfit : SliceFits op.shape g.sizes) (h0 : 0 ∉ g.sizes) (hr : op.shape ≠ [])
    (hc : ∀ a ∈ g.collapsed, g.sizes.getD a 0 = 1)
    (hw : oram = false → ∀ d ∈ op.shape, ∀ k : ℕ, k < d → ty.wrap k = k)
    (hci : (ci.shape = [N, g.startMap.length] ∧ ∀ k, k < g.startMap.length → ci.get [n, k] = cv k) ∨
      (ci.shape = [N] ∧ g.startMap.length = 1 ∧ ci.get [n] = cv 0))
    (acc : Ten R) (ha : acc.shape = N :: rest g.collapsed g.sizes) :
    ∃ r, loopBody oram ty g op ci n acc = some r ∧ r.shape = N :: rest g.collapsed g.sizes ∧
      (∀ u, InB u g.sizes → r.get (n :: rest g.collapsed u) = op.get (shift (dynStart op.shape g.sizes
        ((List.range op.shape.length).map fun d => if d ∈ g.startMap then cv (g.startMap.idxOf d) else 0)) u)) ∧
      ∀ m w, m < N → m ≠ n → InB w (rest g.collapsed g.sizes) → r.get (m :: w) = acc.get (m :: w) := by
  have hiv : ∃ iv, (if ci.shape.length = 1 then dynamicSlice oram ty ci [1] [⟨false, n⟩]
      else (dynamicSlice oram ty ci [1, ci.shape.getD 1 0] [⟨false, n⟩, ⟨false, 0⟩]).bind fun t => elide t [0] : Option (Ten ℤ)) =
        some iv ∧ iv.shape = [g.startMap.length] ∧ ∀ k, k < g.startMap.length → iv.get [k] = cv k := by
    obtain ⟨i1, i2⟩ := index_vector (oram := oram) (ty := ty) (ci := ci) (N := N) (K := g.startMap.length) hn
    rcases hci with ⟨c1, c2⟩ | ⟨c1, c2, c3⟩
    · obtain ⟨iv, v1, v2, v3⟩ := i1 c1
      exact ⟨iv, by rw [if_neg (by rw [c1]; simp)]; exact v1, v2, fun k hk => by rw [v3 k hk, c2 k hk]⟩
    · obtain ⟨iv, v1, v2, v3⟩ := i2 c1
      refine ⟨iv, by rw [if_pos (by rw [c1]; simp)]; exact v1, by rw [v2, c2], fun k hk => ?_⟩
      have : k = 0 := by omega
      rw [this, v3, c3]
  obtain ⟨iv, v1, v2, v3⟩ := hiv
  have hidx : ∀ d ∈ g.startMap, g.startMap.idxOf d < g.startMap.length := fun d hd => List.idxOf_lt_length_of_mem hd
  have hev := expandVector_spec (g := g) (iv := iv) op.shape.length (by rw [v2]; simpa using hidx)
  set starts : List StartIdx := (List.range op.shape.length).map fun d =>
      ⟨true, if d ∈ g.startMap then iv.get [g.startMap.idxOf d] else 0⟩ with hst
  have hvals : starts.map StartIdx.val = (List.range op.shape.length).map fun d =>
      if d ∈ g.startMap then cv (g.startMap.idxOf d) else 0 := by
    rw [hst, List.map_map]
    refine List.map_congr_left fun d _ => ?_
    by_cases hd : d ∈ g.startMap
    · simp only [Function.comp_apply, hd, if_true, v3 _ (hidx d hd)]
    · simp only [Function.comp_apply, hd, if_false]
  have hsl := sliceFits_length hfit
  obtain ⟨s, s1, s2, s3⟩ := c76_dynamicSlice (oram := oram) (ty := ty) (op := op) (sizes := g.sizes) (starts := starts) hfit
    (by rw [hst, List.length_map, List.length_range, hsl])
    (by rw [hst]; intro e; apply hr; simpa using e)
    (fun _ => ⟨h0, by
      intro i hi hs
      rw [hst] at hi
      obtain ⟨d, _, rfl⟩ := List.mem_map.1 hi
      simp at hs, hw⟩)
  obtain ⟨e, e1, e2, e3⟩ := elide_spec s (dims := g.collapsed) (by rw [s2]; intro a ha _; exact hc a ha)
  rw [s2] at e2 e3
  obtain ⟨q, q1, q2, q3⟩ := add_one_dim (x := e) (ds := e.shape) rfl
  rw [e2] at q2 q3
  set C := rest g.collapsed g.sizes with hC
  obtain ⟨r, rev, r1, r2, r3, r4⟩ := c76_dynamicUpdateSlice (op := acc) (upd := q)
    (starts := ⟨false, n⟩ :: List.replicate C.length ⟨false, 0⟩)
    (by rw [ha, q2]; exact .cons (by omega) (sliceFits_refl C)) (by rw [q2]; simp) (by simp) (by simp)
  have hds : dynStart acc.shape q.shape ((⟨false, n⟩ :: List.replicate C.length ⟨false, 0⟩ : List StartIdx).map StartIdx.val) =
      n :: List.replicate C.length 0 := by
    rw [ha, q2, List.map_cons, List.map_replicate, dynStart, clampTo_row hn, dynStart_zeros]
  have hsh : ∀ w, w.length = C.length → shift (n :: List.replicate C.length 0) (0 :: w) = n :: w := by
    intro w hw'
    have := shift_zeros w
    rw [hw'] at this
    simp only [shift, List.zipWith_cons_cons, Nat.add_zero] at this ⊢
    rw [this]
  rw [hds] at r3 r4
  refine ⟨r, ?_, by rw [r2, ha], fun u hu => ?_, fun m w hm hmn hw' => ?_⟩
  · unfold loopBody
    simp only [v1, Option.bind_eq_bind, Option.bind_some, hev, s1, e1, q1]
    rw [e2, r1]
    rfl
  · have hru := rest_InB' (dims := g.collapsed) hu
    have := r3 (0 :: rest g.collapsed u) (by rw [q2]; exact .cons (by omega) hru)
    rw [hsh _ (InB.length hru)] at this
    rw [this, q3 _ hru, e3 u hu, s3 u hu, hvals]
  · refine r4 _ (by rw [ha]; exact .cons hm hw') fun i hi e => ?_
    rw [q2] at hi
    cases hi with
    | cons h1 h2 =>
      simp only [shift, List.zipWith_cons_cons, List.cons.injEq] at e
      omega

theorem dynStart_map {sh ss : List ℕ} (h : SliceFits sh ss) (f : ℕ → ℤ) :
    dynStart sh ss ((List.range sh.length).map f) = (List.range sh.length).map fun d => clampTo (sh.getD d 0 - ss.getD d 0) (f d) := by
  induction h generalizing f with
  | nil => rfl
  | cons h1 _ ih =>
    simp only [List.length_cons, List.range_succ_eq_map, List.map_cons, List.map_map, dynStart]
    rw [ih (f ∘ Nat.succ)]
    simp [Function.comp_def]

theorem zipAdd_map (l : List ℕ) (f k : ℕ → ℕ) : shift (l.map f) (l.map k) = l.map fun d => f d + k d := by
  unfold shift
  rw [List.zipWith_map, List.zipWith_self]

/-- the place within the slice -/
theorem offset_place {g : GatherDims} {sh ish out : List ℕ} (h : g.Wf sh ish out) (hb : g.opBatch = []) {o : List ℕ} (ho : InB o out) :
    InB ((List.range sh.length).map fun d => g.fullOffset sh.length o d) g.sizes ∧
      rest g.collapsed ((List.range sh.length).map fun d => g.fullOffset sh.length o d) = permuted g.offsetDims o ∧
      rest g.collapsed g.sizes = permuted g.offsetDims out := by
  have hsl := sliceFits_length h.sizes_fit
  have hk : g.kept sh.length = (List.range sh.length).filter fun d => decide (d ∉ g.collapsed) := by
    rw [GatherDims.kept, others, hb]; simp
  have hlen : g.offsetDims.length = (g.kept sh.length).length := by
    have := congrArg List.length h.out_offset
    simpa [permuted] using this
  have hnd : (g.kept sh.length).Nodup := by rw [hk]; exact List.nodup_range.filter _
  refine ⟨T.InB_iff.2 ⟨by simp [hsl], fun d hd => ?_⟩, ?_, ?_⟩
  · rw [hsl] at hd
    rw [getD_mapRange _ _ hd]
    unfold GatherDims.fullOffset
    by_cases hc : d ∈ g.collapsed
    · rw [if_pos (.inl hc), h.col_one d hc]; omega
    · obtain ⟨e1, e2⟩ := offset_ext h hd hc (by simp [hb])
      rw [if_neg (by simp [hc, hb]), ← e2]
      exact (T.InB_iff.1 ho).2 _ (h.off_lt _ e1)
  · unfold rest
    rw [List.length_map, List.length_range, ← hk]
    unfold permuted
    apply List.ext_getElem
    · rw [List.length_map, List.length_map, hlen]
    · intro k k1 k2
      rw [List.length_map] at k1 k2
      rw [List.getElem_map, List.getElem_map]
      have hm : (g.kept sh.length)[k] ∈ g.kept sh.length := List.getElem_mem _
      have hm' : ∀ x, x ∈ g.kept sh.length → x < sh.length ∧ decide (x ∉ g.collapsed) = true := by
        intro x hx; rw [hk, List.mem_filter, List.mem_range] at hx; exact hx
      replace hm' := hm' _ hm
      rw [getD_mapRange _ _ hm'.1]
      unfold GatherDims.fullOffset
      rw [if_neg (by have := hm'.2; simp only [decide_eq_true_eq] at this; simp [this, hb]), hnd.idxOf_getElem,
        List.getD_eq_getElem?_getD (l := g.offsetDims), List.getElem?_eq_getElem k2, Option.getD_some]
  · rw [h.out_offset, hk, rest, hsl]; rfl

/-- the source of an element as a place within the slice -/
theorem src_shift {g : GatherDims} {sh ish out : List ℕ} (h : g.Wf sh ish out) (hb : g.opBatch = []) (idx : List ℕ → ℤ) (o : List ℕ) :
    g.src sh ish.length idx o = shift (dynStart sh g.sizes ((List.range sh.length).map fun d =>
      if d ∈ g.startMap then g.startVec ish.length idx (rest g.offsetDims o) (g.startMap.idxOf d) else 0))
        ((List.range sh.length).map fun d => g.fullOffset sh.length o d) := by
  rw [dynStart_map h.sizes_fit, zipAdd_map]
  unfold GatherDims.src
  refine List.map_congr_left fun d _ => ?_
  have hfb : g.fullBatch (rest g.offsetDims o) d = 0 := by unfold GatherDims.fullBatch; rw [if_neg (by simp [hb])]
  rw [hfb, Nat.add_zero]
  congr 1
  unfold GatherDims.fullStart
  by_cases hd : d ∈ g.startMap
  · rw [if_pos hd, if_pos hd]
  · rw [if_neg hd, if_neg hd]; simp [clampTo]

theorem unpos {B : List ℕ} {n : ℕ} (h : n < size B) : ∃ b, InB b B ∧ pos b B = n := by
  have : n ∈ (allIdx B).map fun i => pos i B := by rw [map_pos_allIdx]; exact List.mem_range.2 h
  obtain ⟨b, b1, b2⟩ := List.mem_map.1 this
  exact ⟨b, mem_allIdx.1 b1, b2⟩

/-- **C77** (secret start indices).  The loop of dynamic slices and updates is a gather, if the slice is not the whole operand, the
index type counts the index vectors and the extents, and the vector dimension is not 2. -/
theorem c77_secretGather {oram : Bool} {ty : IntTy} {g : GatherDims} {op : Ten R} {si : Ten ℤ} {out : List ℕ} {fuel : ℕ}
    (h : g.Wf op.shape si.shape out) (hb : g.opBatch = []) (h0 : 0 ∉ g.sizes) (hne : g.sizes ≠ op.shape)
    (hform : (g.ivd < si.shape.length ∧ g.ivd ≠ 2) ∨ (g.ivd = 1 ∧ si.shape.length = 1))
    (hw : oram = false → ∀ d ∈ op.shape, ∀ k : ℕ, k < d → ty.wrap k = k)
    (hN : ∀ k : ℕ, k ≤ size (g.batchShape si.shape) → ty.wrap k = k) (hfuel : size (g.batchShape si.shape) < fuel) :
    ∃ r, secretGather oram ty g op si out fuel = some r ∧ r.shape = out ∧
      ∀ o, InB o out → r.get o = op.get (g.src op.shape si.shape.length si.get o) := by
  set B := g.batchShape si.shape with hB
  set C := rest g.collapsed g.sizes with hC
  have hml : g.startMap.length = vecLen g si.shape := h.map_len
  obtain ⟨ci, c1, c2, c3⟩ := canonicalIndices_spec (g := g) (si := si) h.ivd_le
  rw [← hB] at c2 c3
  have hr : op.shape ≠ [] := by
    intro e
    have := h.sizes_fit
    rw [e] at this
    cases hs : g.sizes with
    | nil => exact hne (by rw [hs, e])
    | cons a l => rw [hs] at this; cases this
  have hco : C = permuted g.offsetDims out := by
    rw [h.out_offset, hC, rest, sliceFits_length h.sizes_fit, GatherDims.kept, others, hb]
    simp [permuted]
  have hshape : ci.shape.getD 0 0 = size B ∧ (ci.shape.length = 1 ↔ g.ivd = ci.shape.length) := by
    rcases hform with ⟨f1, f2⟩ | ⟨f1, f2⟩
    · rw [(c2 f1).1]; exact ⟨rfl, by simp [f2]⟩
    · rw [(c3 (by omega)).1]; exact ⟨rfl, by simp [f1]⟩
  obtain ⟨acc, a1, a2, a3⟩ := runLoop_spec ty (size B) (loopBody oram ty g op ci)
    (fun n acc => acc.shape = size B :: C ∧ ∀ b u, InB b B → InB u g.sizes → pos b B < n →
      acc.get (pos b B :: rest g.collapsed u) = op.get (shift (dynStart op.shape g.sizes
        ((List.range op.shape.length).map fun d => if d ∈ g.startMap then
          g.startVec si.shape.length si.get b (g.startMap.idxOf d) else 0)) u)) hN
    (by
      intro n acc hn hP
      obtain ⟨b, b1, b2⟩ := unpos hn
      obtain ⟨r, r1, r2, r3, r4⟩ := loopBody_spec (oram := oram) (ty := ty) (g := g) (op := op) (ci := ci) (N := size B) (n := n)
        (fun k => g.startVec si.shape.length si.get b k) hn h.sizes_fit h0 hr h.col_one hw
        (by
          rcases Nat.lt_or_ge g.ivd si.shape.length with f1 | f1
          · obtain ⟨d1, d2⟩ := c2 f1
            rw [← hml] at d1 d2
            exact .inl ⟨d1, fun k hk => by rw [← b2, d2 b k b1 hk]⟩
          · have f2 : g.ivd = si.shape.length := by have := h.ivd_le; omega
            obtain ⟨d1, d2⟩ := c3 f2
            exact .inr ⟨d1, by rw [hml, vecLen, if_neg (by omega)], by rw [← b2, d2 b b1]⟩)
        acc hP.1
      refine ⟨r, r1, r2, fun b' u hb' hu hlt => ?_⟩
      by_cases he : pos b' B = n
      · have : b' = b := pos_inj hb' b1 (by omega)
        subst this
        rw [he, r3 u hu]
      · rw [r4 _ _ (pos_lt_size hb') he (rest_InB' hu), hP.2 b' u hb' hu (by omega)])
    (size B) fuel 0 ⟨size B :: C, fun _ => 0⟩ (by omega) hfuel ⟨rfl, fun _ _ _ _ hlt => by omega⟩
  obtain ⟨e, e1⟩ := reshape_isSome (t := acc) (sh := B ++ C) (by rw [a2, T.size_append]; simp [size])
  obtain ⟨e2, e3⟩ := reshape_spec e1
  obtain ⟨r, r1, r2, r3⟩ := final_spec e h.off_sorted h.off_lt (by rw [e2, h.out_batch, hco])
  refine ⟨r, ?_, r2, fun o ho => ?_⟩
  · unfold secretGather
    rw [if_neg hne]
    simp only [batchBounds_eq h.ivd_le, ← hB, ← hC, c1, Option.bind_eq_bind, Option.bind_some]
    rw [if_pos hshape, hN _ le_rfl]
    simp only [Nat.cast_zero] at a1
    rw [a1, Option.bind_some, a2, List.tail_cons, e1, Option.bind_some, r1, Option.bind_some, if_pos r2]
  · obtain ⟨u1, u2, u3⟩ := offset_place h hb ho
    have hbo := rest_InB h ho
    rw [← hB] at hbo
    have hu := rest_InB' (dims := g.collapsed) u1
    rw [r3 o ho, src_shift h hb, ← a3 _ _ hbo u1 (pos_lt_size hbo), ← u2]
    refine e3 _ _ (T.InB_append hbo hu) (by rw [a2]; exact .cons (pos_lt_size hbo) hu) ?_
    rw [T.pos_append hbo, a2]
    simp [pos]

end Spu.Props

import Verif.Props.GatherSimplify

set_option autoImplicit false

/-!
# C77: gathers from the front end to their execution
-/

namespace Spu.Props
open Spu.Spec Spu.Model Spu.Lemmas Spu.Lemmas.T Spu.Model.Gat Spu.Model.Dyn Spu.Model.RW

variable {α : Type}

/-- the rewriting keeps the meaning of a gather, whatever executes the gathers that remain, if it executes them correctly -/
theorem c77_frontEnd {ty : IntTy} {g : GatherDims} {op : Ten α} {si : Ten ℤ} {out : List ℕ}
    (run : GatherDims → Ten α → Ten ℤ → Shape → Option (Ten α)) (h : g.Wf op.shape si.shape out)
    (hsimp : g.opBatch ≠ [] → isSimplified g si.shape = false)
    (hlast : g.opBatch ≠ [] → g.ivd + 1 < si.shape.length → g.batchShape si.shape ++ [si.shape.getD g.ivd 0] = si.shape)
    (hw : ∀ d ∈ g.opBatch, ∀ k : ℕ, k < op.shape.getD d 0 → ty.wrap k = k)
    (hrun : ∀ (g1 : GatherDims) (op1 : Ten α) (si1 : Ten ℤ) (out1 : List ℕ), g1.opBatch = [] → g1.Wf op1.shape si1.shape out1 →
      g1.ivd = 1 → si1.shape.length = 2 → (∀ x, x ∈ op1.shape ↔ x ∈ op.shape) → (∀ x, x ∈ g1.sizes ↔ x ∈ g.sizes) →
      (g1.sizes = op1.shape ↔ g.sizes = op.shape) → size (g1.batchShape si1.shape) = size (g.batchShape si.shape) →
      ∃ r, run g1 op1 si1 out1 = some r ∧ r.shape = out1 ∧
        ∀ o, InB o out1 → r.get o = op1.get (g1.src op1.shape si1.shape.length si1.get o)) :
    ∃ r, frontEnd ty run g op si out = some r ∧ r.shape = out ∧
      ∀ o, InB o out → r.get o = op.get (g.src op.shape si.shape.length si.get o) := by
  unfold frontEnd
  by_cases hs : isSimplified g si.shape = true
  · rw [if_pos hs]
    have hb : g.opBatch = [] := by
      by_contra hc
      rw [hsimp hc] at hs; exact absurd hs (by simp)
    unfold isSimplified at hs
    simp only [decide_eq_true_eq] at hs
    exact hrun g op si out hb h hs.2.1 hs.1 (fun _ => Iff.rfl) (fun _ => Iff.rfl) Iff.rfl rfl
  · rw [if_neg hs]
    have key : ∀ (g' : GatherDims) (si' : Ten ℤ), g'.opBatch = [] → g'.Wf op.shape si'.shape out → g'.sizes = g.sizes →
        g'.batchShape si'.shape = g.batchShape si.shape →
        (∀ o, InB o out → g'.src op.shape si'.shape.length si'.get o = g.src op.shape si.shape.length si.get o) →
        ∃ r, (do
          let p ← simplifyPre g' op si'
          let r ← run p.1 p.2.1 p.2.2.1 p.2.2.2
          simplifyPost g' si'.shape r) = some r ∧ r.shape = out ∧
          ∀ o, InB o out → r.get o = op.get (g.src op.shape si.shape.length si.get o) := by
      intro g' si' hb' hwf hsz hbs hsrc
      obtain ⟨g1, op1, si1, out1, e1, e2, e3, _, ⟨P, f1, f2, f3⟩, f4, f5, f6, e4⟩ := c77_simplify hwf hb'
      have hsl : g'.sizes.length = op.shape.length := sliceFits_length hwf.sizes_fit
      obtain ⟨r, r1, r2, r3⟩ := hrun g1 op1 si1 out1 e2 e3 f6 (by rw [f5]; rfl)
        (fun x => by rw [f2]; exact mem_permuted f1)
        (fun x => by rw [f3, ← hsz]; exact mem_permuted (by rw [hsl]; exact f1))
        (by
          rw [f2, f3, hsz]
          constructor
          · exact permuted_inj f1 (by rw [← hsz]; exact hsl) rfl
          · intro e; rw [e])
        (by rw [GatherDims.batchShape, f5, f6, hbs]; simp [size])
      obtain ⟨z, z1, z2, z3⟩ := e4 r r2 r3
      refine ⟨z, ?_, z2, fun o ho => by rw [z3 o ho, hsrc o ho]⟩
      simp only [e1, Option.bind_eq_bind, Option.bind_some, r1, z1]
    by_cases hb : g.opBatch = []
    · rw [if_pos hb, Option.bind_eq_bind, Option.bind_some]
      exact key g si hb h rfl rfl fun _ _ => rfl
    · obtain ⟨g', si', u1, u2, u3, u4, u5, u6⟩ := c77_unbatch (ty := ty) h (hlast hb) hw
      rw [if_neg hb, u1, Option.bind_eq_bind, Option.bind_some]
      exact key g' si' u2 u3 u4 u5 u6

/-- **C77** (public start indices).  The gather that the front end leaves is executed by `Gather`. -/
theorem c77_public {ty : IntTy} {g : GatherDims} {op : Ten α} {si : Ten ℤ} {out : List ℕ} (junk : List ℕ → α)
    (h : g.Wf op.shape si.shape out) (hs : 0 < size op.shape) (h0 : 0 ∉ g.sizes) (hB : 0 < size (g.batchShape si.shape))
    (hsimp : g.opBatch ≠ [] → isSimplified g si.shape = false)
    (hlast : g.opBatch ≠ [] → g.ivd + 1 < si.shape.length → g.batchShape si.shape ++ [si.shape.getD g.ivd 0] = si.shape)
    (hw : ∀ d ∈ g.opBatch, ∀ k : ℕ, k < op.shape.getD d 0 → ty.wrap k = k) :
    ∃ r, frontEnd ty (fun g op si out => gather g op si out junk) g op si out = some r ∧ r.shape = out ∧
      ∀ o, InB o out → r.get o = op.get (g.src op.shape si.shape.length si.get o) := by
  refine c77_frontEnd _ h hsimp hlast hw fun g1 op1 si1 out1 b1 w1 i1 r1 m1 m2 _ q1 => ?_
  have ho : 0 < size out1 := by
    rw [T.size_pos_iff]
    intro hm
    obtain ⟨k, hk, e⟩ := List.getElem_of_mem hm
    by_cases hko : k ∈ g1.offsetDims
    · have hmem : out1[k] ∈ permuted g1.offsetDims out1 :=
        List.mem_map.2 ⟨k, hko, by rw [List.getD_eq_getElem?_getD, List.getElem?_eq_getElem hk]; rfl⟩
      rw [w1.out_offset, e] at hmem
      obtain ⟨d, hd, e'⟩ := List.mem_map.1 hmem
      have hdl : d < g1.sizes.length := by
        rw [sliceFits_length w1.sizes_fit]
        exact List.mem_range.1 (List.mem_filter.1 hd).1
      refine h0 ((m2 0).1 ?_)
      rw [← e', List.getD_eq_getElem?_getD, List.getElem?_eq_getElem hdl]
      exact List.getElem_mem _
    · have hmem : out1[k] ∈ rest g1.offsetDims out1 :=
        List.mem_map.2 ⟨k, List.mem_filter.2 ⟨List.mem_range.2 hk, by simpa using hko⟩, by
          rw [List.getD_eq_getElem?_getD, List.getElem?_eq_getElem hk]; rfl⟩
      rw [w1.out_batch, e] at hmem
      have : 0 < size (g1.batchShape si1.shape) := by rw [q1]; exact hB
      exact T.size_pos_iff.1 this hmem
  obtain ⟨r, r1, r2, r3⟩ := c77_gather op1 si1 junk w1 b1
    (T.size_pos_iff.2 fun hm => T.size_pos_iff.1 hs ((m1 0).1 hm)) ho
  exact ⟨r, r1, r2, fun o ho => (r3 o ho).2⟩

variable {R : Type} [CommRing R]

/-- **C77** (secret start indices).  The gather that the front end leaves is executed by a loop of dynamic slices and updates. -/
theorem c77_secret {oram : Bool} {ty : IntTy} {g : GatherDims} {op : Ten R} {si : Ten ℤ} {out : List ℕ} {fuel : ℕ}
    (h : g.Wf op.shape si.shape out) (h0 : 0 ∉ g.sizes) (hne : g.sizes ≠ op.shape)
    (hsimp : g.opBatch ≠ [] → isSimplified g si.shape = false)
    (hlast : g.opBatch ≠ [] → g.ivd + 1 < si.shape.length → g.batchShape si.shape ++ [si.shape.getD g.ivd 0] = si.shape)
    (hw : ∀ d ∈ op.shape, ∀ k : ℕ, k < d → ty.wrap k = k)
    (hN : ∀ k : ℕ, k ≤ size (g.batchShape si.shape) → ty.wrap k = k) (hfuel : size (g.batchShape si.shape) < fuel) :
    ∃ r, frontEnd ty (fun g op si out => secretGather oram ty g op si out fuel) g op si out = some r ∧ r.shape = out ∧
      ∀ o, InB o out → r.get o = op.get (g.src op.shape si.shape.length si.get o) := by
  refine c77_frontEnd _ h hsimp hlast (fun d hd k hk => ?_) fun g1 op1 si1 out1 b1 w1 i1 r1 m1 m2 m3 q1 => ?_
  · refine hw (op.shape.getD d 0) ?_ k hk
    rw [List.getD_eq_getElem?_getD, List.getElem?_eq_getElem (h.bat_lt d hd)]
    exact List.getElem_mem _
  · exact c77_secretGather w1 b1 (fun hm => h0 ((m2 0).1 hm)) (fun e => hne (m3.1 e)) (.inl ⟨by omega, by omega⟩)
      (fun _ d hd k hk => hw d ((m1 d).1 hd) k hk) (by rw [q1]; exact hN) (by rw [q1]; exact hfuel)

/-! ## What the code gets wrong -/

/-- the gather of an empty operand is the operand, whatever shape the result should have -/
theorem c77_empty_operand (g : GatherDims) (op : Ten α) (si : Ten ℤ) (out : List ℕ) (junk : List ℕ → α) (h : size op.shape = 0) :
    gather g op si out junk = some op := by
  unfold gather; rw [if_pos h]

/-- a gather with secret start indices whose slices are the whole operand is not executed -/
theorem c77_whole_operand (oram : Bool) (ty : IntTy) (g : GatherDims) (op : Ten R) (si : Ten ℤ) (out : List ℕ) (fuel : ℕ)
    (h : g.sizes = op.shape) (hc : g.collapsed = []) (hr : op.shape ≠ []) (hs : 0 < size op.shape) :
    secretGather oram ty g op si out fuel = none := by
  unfold secretGather
  rw [if_pos h]
  have : op.reshape ((List.range op.shape.length).filter fun d => decide (d ∉ g.collapsed)) = none := by
    unfold Ten.reshape
    rw [if_neg]
    have : size ((List.range op.shape.length).filter fun d => decide (d ∉ g.collapsed)) = 0 := by
      have h0 : 0 ∈ (List.range op.shape.length).filter fun d => decide (d ∉ g.collapsed) := by
        rw [hc]
        have : 0 < op.shape.length := List.length_pos_iff.2 hr
        simp [this]
      by_contra hne
      exact T.size_pos_iff.1 (Nat.pos_of_ne_zero hne) h0
    omega
  rw [this]
  rfl

/-- without the front end, start indices with vector dimension 2 are refused -/
theorem c77_vector_dim_2 (oram : Bool) (ty : IntTy) (g : GatherDims) (op : Ten R) (si : Ten ℤ) (out : List ℕ) (fuel : ℕ)
    (h : g.sizes ≠ op.shape) (hv : g.ivd = 2) (hr : 2 < si.shape.length) :
    secretGather oram ty g op si out fuel = none := by
  unfold secretGather
  rw [if_neg h]
  obtain ⟨ci, c1, c2, _⟩ := canonicalIndices_spec (g := g) (si := si) (by omega)
  simp only [c1, Option.bind_eq_bind, Option.bind_some]
  rw [if_neg]
  rintro ⟨_, hx⟩
  rw [(c2 (by omega)).1, hv] at hx
  simp at hx

/-- rows `si[i, 0]` of a matrix -/
def rowsOf : GatherDims := { offsetDims := [1], collapsed := [0], startMap := [0], ivd := 1, sizes := [1, 4] }

theorem rowsOf_wf : rowsOf.Wf [3, 4] [2, 1] [2, 4] where
  off_sorted := by decide
  off_lt := by decide
  col_lt := by decide
  bat_lt := by decide
  col_bat := by decide
  map_nodup := by decide
  map_lt := by decide
  ivd_le := by decide
  map_len := by decide
  bat_len := by decide
  ibat_lt := by decide
  bat_ext := by intro k hk; exact absurd hk (by simp [rowsOf])
  sizes_fit := .cons (by decide) (.cons (by decide) .nil)
  col_one := by decide
  bat_one := by decide
  out_batch := by decide
  out_offset := by decide

/-- rows `si[b, i, 0]` of matrix `b` -/
def batchRows : GatherDims :=
  { offsetDims := [2], collapsed := [1], opBatch := [0], idxBatch := [0], startMap := [1], ivd := 2, sizes := [1, 1, 4] }

theorem batchRows_wf : batchRows.Wf [2, 3, 4] [2, 5, 1] [2, 5, 4] where
  off_sorted := by decide
  off_lt := by decide
  col_lt := by decide
  bat_lt := by decide
  col_bat := by decide
  map_nodup := by decide
  map_lt := by decide
  ivd_le := by decide
  map_len := by decide
  bat_len := by decide
  ibat_lt := by decide
  bat_ext := by intro k hk; have : k = 0 := by simp [batchRows] at hk; exact hk
                subst this; decide
  sizes_fit := .cons (by decide) (.cons (by decide) (.cons (by decide) .nil))
  col_one := by decide
  bat_one := by decide
  out_batch := by decide
  out_offset := by decide

example (op : Ten ℤ) (h : op.shape = [3, 4]) :
    ∃ r, gather rowsOf op ⟨[2, 1], fun i => [2, -7].getD (i.headD 0) 0⟩ [2, 4] (fun _ => 0) = some r ∧ r.shape = [2, 4] ∧
      r.get [0, 3] = op.get [2, 3] ∧ r.get [1, 3] = op.get [0, 3] := by
  obtain ⟨r, r1, r2, r3⟩ := c77_gather op ⟨[2, 1], fun i => [2, -7].getD (i.headD 0) 0⟩ (fun _ => 0)
    (g := rowsOf) (out := [2, 4]) (by rw [h]; exact rowsOf_wf) rfl (by rw [h]; decide) (by decide)
  refine ⟨r, r1, r2, ?_, ?_⟩
  · rw [(r3 [0, 3] (.cons (by decide) (.cons (by decide) .nil))).2, h]
    congr 1
  · rw [(r3 [1, 3] (.cons (by decide) (.cons (by decide) .nil))).2, h]
    congr 1

/-- 8-bit start indices -/
def i8 : IntTy := ⟨8, true⟩

theorem i8_wrap {k : ℕ} (h : k < 128) : i8.wrap k = k := by
  unfold IntTy.wrap i8
  simp only [if_true]
  rw [Int.bmod_eq_of_le] <;> omega

example (op : Ten ℤ) (h : op.shape = [2, 3, 4]) (si : Ten ℤ) (hsi : si.shape = [2, 5, 1]) :
    ∃ r, frontEnd i8 (fun g op si out => secretGather false i8 g op si out 11) batchRows op si [2, 5, 4] = some r ∧
      r.shape = [2, 5, 4] ∧ ∀ o, InB o [2, 5, 4] → r.get o = op.get (batchRows.src op.shape si.shape.length si.get o) :=
  c77_secret (by rw [h, hsi]; exact batchRows_wf) (by decide) (by rw [h]; decide) (fun _ => by rw [hsi]; decide)
    (fun _ hx => by rw [hsi] at hx; exact absurd hx (by decide))
    (by rw [h]; intro d hd k hk; refine i8_wrap ?_; simp at hd; omega)
    (by rw [hsi]; intro k hk; exact i8_wrap (Nat.lt_of_le_of_lt hk (by decide))) (by rw [hsi]; decide)

example (op : Ten ℤ) (h : op.shape = [2, 3, 4]) (si : Ten ℤ) (hsi : si.shape = [2, 5, 1]) :
    ∃ r, frontEnd i8 (fun g op si out => gather g op si out fun _ => 0) batchRows op si [2, 5, 4] = some r ∧
      r.shape = [2, 5, 4] ∧ ∀ o, InB o [2, 5, 4] → r.get o = op.get (batchRows.src op.shape si.shape.length si.get o) :=
  c77_public _ (by rw [h, hsi]; exact batchRows_wf) (by rw [h]; decide) (by decide) (by rw [hsi]; decide)
    (fun _ => by rw [hsi]; decide) (fun _ hx => by rw [hsi] at hx; exact absurd hx (by decide))
    (by rw [h]; intro d hd k hk; refine i8_wrap ?_; simp [batchRows] at hd; subst hd; simp at hk; omega)

example (idx : List ℕ → ℤ) (h : idx [1, 4, 0] = 2) : batchRows.src [2, 3, 4] 3 idx [1, 4, 3] = [1, 2, 3] := by
  have : batchRows.startVec 3 idx [1, 4] 0 = 2 := h
  have e : batchRows.src [2, 3, 4] 3 idx [1, 4, 3] =
      [1, clampTo 2 (batchRows.startVec 3 idx [1, 4] 0), 3] := by
    simp [GatherDims.src, GatherDims.fullStart, GatherDims.fullBatch, GatherDims.fullOffset, batchRows, List.range_succ, rest,
      GatherDims.kept, others, List.idxOf_cons]
  rw [e, this]; rfl

/-- a gather with batching dimensions that counts as simplified -/
def taken : GatherDims :=
  { offsetDims := [1], collapsed := [], opBatch := [1], idxBatch := [0], startMap := [0], ivd := 1, sizes := [2, 1] }

theorem taken_wf : taken.Wf [3, 2] [2, 1] [2, 2] where
  off_sorted := by decide
  off_lt := by decide
  col_lt := by decide
  bat_lt := by decide
  col_bat := by decide
  map_nodup := by decide
  map_lt := by decide
  ivd_le := by decide
  map_len := by decide
  bat_len := by decide
  ibat_lt := by decide
  bat_ext := by intro k hk; have : k = 0 := by simp [taken] at hk; exact hk
                subst this; decide
  sizes_fit := .cons (by decide) (.cons (by decide) .nil)
  col_one := by decide
  bat_one := by decide
  out_batch := by decide
  out_offset := by decide

/-- such a gather keeps its batching dimensions, the next step drops them (`hlo_legalize_to_pphlo.cc:1225-1266`), and the kernel reads
beyond `window_index_to_output_index` -/
theorem c77_batched_simplified : taken.Wf [3, 2] [2, 1] [2, 2] ∧ isSimplified taken [2, 1] = true ∧
    ∀ (op : Ten α) (si : Ten ℤ) (junk : List ℕ → α), op.shape = [3, 2] → si.shape = [2, 1] →
      gather { taken with opBatch := [], idxBatch := [] } op si [2, 2] junk = none := by
  refine ⟨taken_wf, by decide, fun op si junk h1 h2 => ?_⟩
  unfold gather
  rw [if_neg (by rw [h1]; decide), if_neg (by rw [h2]; decide), h1]
  rfl

/-- rows of matrices, with the vector dimension first -/
def vectorFirst : GatherDims :=
  { offsetDims := [2], collapsed := [1], opBatch := [0], idxBatch := [1], startMap := [1], ivd := 0, sizes := [1, 1, 4] }

theorem vectorFirst_wf : vectorFirst.Wf [2, 3, 4] [1, 2, 5] [2, 5, 4] where
  off_sorted := by decide
  off_lt := by decide
  col_lt := by decide
  bat_lt := by decide
  col_bat := by decide
  map_nodup := by decide
  map_lt := by decide
  ivd_le := by decide
  map_len := by decide
  bat_len := by decide
  ibat_lt := by decide
  bat_ext := by intro k hk; have : k = 0 := by simp [vectorFirst] at hk; exact hk
                subst this; decide
  sizes_fit := .cons (by decide) (.cons (by decide) (.cons (by decide) .nil))
  col_one := by decide
  bat_one := by decide
  out_batch := by decide
  out_offset := by decide

/-- batching dimensions and a vector dimension that is not last: the transposition is given the wrong shape -/
theorem c77_vector_not_last : vectorFirst.Wf [2, 3, 4] [1, 2, 5] [2, 5, 4] ∧
    ∀ (ty : IntTy) (si : Ten ℤ), si.shape = [1, 2, 5] → unbatch ty vectorFirst si = none := by
  refine ⟨vectorFirst_wf, fun ty si h => ?_⟩
  have : vectorLast vectorFirst si = none := by
    obtain ⟨t, t1, t2, _⟩ := vector_transpose (g := vectorFirst) (si := si) (by rw [h]; decide)
    unfold vectorLast
    rw [if_neg (by rw [h]; decide), if_neg (by rw [h]; decide), t1, Option.bind_eq_bind, Option.bind_some, if_neg]
    rw [t2, h]; decide
  unfold unbatch
  rw [this]
  rfl

/-- elements `si[i, 0]` of a vector -/
def elementsOf : GatherDims := { offsetDims := [], collapsed := [0], startMap := [0], ivd := 1, sizes := [1] }

theorem elementsOf_wf : elementsOf.Wf [5] [200, 1] [200] where
  off_sorted := by decide
  off_lt := by decide
  col_lt := by decide
  bat_lt := by decide
  col_bat := by decide
  map_nodup := by decide
  map_lt := by decide
  ivd_le := by decide
  map_len := by decide
  bat_len := by decide
  ibat_lt := by decide
  bat_ext := by intro k hk; exact absurd hk (by simp [elementsOf])
  sizes_fit := .cons (by decide) .nil
  col_one := by decide
  bat_one := by decide
  out_batch := by decide
  out_offset := by decide

/-- more index vectors than the index type counts: the loop is not entered and the result is 0 -/
theorem c77_narrow_counter : elementsOf.Wf [5] [200, 1] [200] ∧
    ∀ (oram : Bool) (op : Ten R) (si : Ten ℤ) (fuel : ℕ), op.shape = [5] → si.shape = [200, 1] →
      ∃ r, secretGather oram i8 elementsOf op si [200] (fuel + 1) = some r ∧ r.shape = [200] ∧ ∀ o, InB o [200] → r.get o = 0 := by
  refine ⟨elementsOf_wf, fun oram op si fuel h1 h2 => ?_⟩
  obtain ⟨ci, c1, c2, _⟩ := canonicalIndices_spec (g := elementsOf) (si := si) (by rw [h2]; decide)
  have hsh : ci.shape = [200, 1] := by rw [(c2 (by rw [h2]; decide)).1, h2]; decide
  have hloop : runLoop i8 (i8.wrap 200) (loopBody oram i8 elementsOf op ci) (fuel + 1) 0 (⟨[200], fun _ => 0⟩ : Ten R) =
      some ⟨[200], fun _ => 0⟩ := by
    rw [runLoop, if_neg (by decide)]
  unfold secretGather
  rw [if_neg (by rw [h1]; decide)]
  simp only [c1, Option.bind_eq_bind, Option.bind_some]
  rw [h2, hsh, show batchBounds elementsOf.ivd [200, 1] = [200] from by decide, if_pos (by decide)]
  obtain ⟨e, e1⟩ := reshape_isSome (t := (⟨[200], fun _ => 0⟩ : Ten R)) (sh := [200]) rfl
  obtain ⟨e2, e3⟩ := reshape_spec e1
  obtain ⟨r, r1, r2, r3⟩ := final_spec (off := []) (out := [200]) e .nil (by simp) (by rw [e2]; decide)
  refine ⟨r, ?_, r2, fun o ho => ?_⟩
  · change (runLoop i8 (i8.wrap 200) (loopBody oram i8 elementsOf op ci) (fuel + 1) 0 (⟨[200], fun _ => 0⟩ : Ten R)).bind _ = _
    rw [hloop, Option.bind_some]
    change ((⟨[200], fun _ => 0⟩ : Ten R).reshape [200]).bind _ = _
    rw [e1, Option.bind_some]
    change (e.transpose (finalPerm [] (List.range 1) 0 1)).bind _ = _
    rw [show e.transpose (finalPerm [] (List.range 1) 0 1) = some r from r1, Option.bind_some, if_pos r2]
  · rw [r3 o ho]
    have : rest [] o ++ permuted [] o = o := by
      cases ho with
      | cons h h' => cases h'; rfl
    rw [this]
    exact e3 o o ho ho rfl

end Spu.Props

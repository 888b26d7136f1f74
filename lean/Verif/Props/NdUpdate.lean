import Verif.Props.NdCopy

set_option autoImplicit false

/-! # C45: in-place updates change exactly the addressed elements -/

namespace Spu.Props
open Model Spec

/-! ## update_slice -/

/-- Aliasing that `eliminate_zero_stride` cannot see is excluded: without a zero stride on an axis of extent ≠ 1,
distinct indices have distinct addresses.  `UpdateSlice::proc` (standard_shape/kernels.cc:50-61) always passes a clone,
for which this is `zeroStrideAlias_compact`. -/
def ZeroStrideAlias (v : View) : Prop :=
  (List.zipWith (fun d s => decide (d ≠ 1 ∧ s = 0)) v.shape v.strides).any id = false → v.Inj

theorem eliminate_spec {α : Type} {buf : Array α} {v : View} (hv : v.Valid buf) (ha : ZeroStrideAlias v) :
    ∃ b u, eliminateZeroStride buf v = some (b, u) ∧ u.Valid b ∧ u.shape = v.shape ∧ u.Inj ∧
      ∀ i, InB i v.shape → u.get b i = v.get buf i := by
  unfold eliminateZeroStride
  split
  · obtain ⟨b, w, h1, h2, h3, h4, h5, h6⟩ := clone_spec hv
    have hw : w = ⟨v.shape, makeCompactStrides v.shape, 0⟩ := by
      obtain ⟨a, b, c⟩ := w
      simp only at h2 h3 h4
      rw [h2, h3, h4]
    subst hw
    refine ⟨b, _, h1, compact_valid h5, rfl, compact_inj _ _, fun i hi => ?_⟩
    rw [h6 i hi, View.get, compact_addr hi]
    simp [rd]
  · rename_i h
    exact ⟨buf, v, rfl, hv, rfl, ha (by simpa using h), fun _ _ => rfl⟩

/-- C45 (update_slice): after the update the array reads as the new value on the block that starts at `start`, and as
before everywhere else. -/
theorem c45_update_slice {α : Type} {buf nbuf : Array α} {v nv : View} {start : Index} (hv : v.Valid buf)
    (hn : nv.Valid nbuf) (ha : ZeroStrideAlias v) (hl1 : start.length = v.shape.length)
    (hl2 : nv.shape.length = v.shape.length)
    (hfit : ∀ a, a < v.shape.length → start.getD a 0 + nv.shape.getD a 0 ≤ v.shape.getD a 0) :
    ∃ b u, updateSlice buf v nbuf nv start = some (b, u) ∧ u.Valid b ∧ u.shape = v.shape ∧
      (∀ i, InB i nv.shape → InB (List.zipWith (· + ·) start i) v.shape ∧
        u.get b (List.zipWith (· + ·) start i) = nv.get nbuf i) ∧
      (∀ j, InB j v.shape → (∀ i, InB i nv.shape → j ≠ List.zipWith (· + ·) start i) → u.get b j = v.get buf j) := by
  unfold updateSlice
  by_cases h0 : numel nv.shape = 0
  · rw [if_pos h0]
    refine ⟨buf, v, rfl, hv, rfl, fun i hi => ?_, fun _ _ _ => rfl⟩
    have := size_pos_of_InB hi
    rw [numel_eq_size] at h0; omega
  rw [if_neg h0]
  obtain ⟨b, u, e1, e2, e3, e4, e5⟩ := eliminate_spec hv ha
  simp only [e1, Option.bind_eq_bind, Option.bind_some]
  have hin : ∀ i, InB i nv.shape → InB (List.zipWith (· + ·) start i) v.shape := by
    intro i hi
    rw [InB_iff]
    have hil := InB.length hi
    refine ⟨by simp [hl1, hil, hl2], fun a ha' => ?_⟩
    have h1 := hfit a ha'
    have h2 := ((InB_iff _ _).1 hi).2 a (by omega)
    have e : (List.zipWith (· + ·) start i).getD a 0 = start.getD a 0 + i.getD a 0 := by
      have p1 : a < start.length := by omega
      have p2 : a < i.length := by omega
      simp [List.getD_eq_getElem?_getD, List.getElem?_zipWith, p1, p2]
    omega
  by_cases h1 : numel nv.shape = 1
  · rw [if_pos h1]
    rw [numel_eq_size] at h1
    have hz := InB_zeros (sh := nv.shape) (by omega)
    have huniq : ∀ i, InB i nv.shape → i = List.replicate nv.shape.length 0 := fun i hi =>
      pos_inj hi hz (by have := pos_lt_size hi; have := pos_lt_size hz; omega)
    have hst : List.zipWith (· + ·) start (List.replicate nv.shape.length 0) = start := by
      apply List.ext_getElem
      · simp [hl1, hl2]
      · intro a p1 p2; simp
    have hstart : InB start u.shape := by rw [e3]; have := hin _ hz; rwa [hst] at this
    obtain ⟨it, i1, ⟨_, idx, i2, i3, i4, i5⟩, i6⟩ := iterMk_spec e2.1 hstart
    have hptr : it.ptr = u.addr start := by
      rw [i5, addr_eq e2.1, i6.eq _ _ i3 hstart i4]
    obtain ⟨x, hx⟩ := hn.2 _ hz
    have hoff : nv.addr (List.replicate nv.shape.length 0) = nv.offset := by
      rw [addr_eq hn.1, strideDot_zeros]; ring
    have hx' : rd nbuf nv.offset = some x := by rw [View.get, hoff] at hx; exact hx
    obtain ⟨b', w1, w2, w3, w4⟩ := wr_spec (e2.2 start hstart) x
    refine ⟨b', u, ?_, ⟨e2.1, fun i hi => rd_size w2 (e2.2 i hi)⟩, e3, fun i hi => ⟨hin i hi, ?_⟩, fun j hj hno => ?_⟩
    · simp only [i1, Iter.deref, i2, Option.map_some, Option.bind_some, hptr, hx', w1, Option.pure_def]
    · rw [huniq i hi, hst, hx, View.get, w3]
    · rw [← e5 j hj]
      apply w4
      intro h
      have := e4 j start (by rw [e3]; exact hj) hstart h
      exact hno _ hz (by rw [hst]; exact this)
  · rw [if_neg h1]
    have hstop : ∀ a, a < u.shape.length → (List.zipWith (· + ·) start nv.shape).getD a 0 ≤ u.shape.getD a 0 := by
      intro a ha'
      rw [e3] at ha' ⊢
      have h1 := hfit a ha'
      have e : (List.zipWith (· + ·) start nv.shape).getD a 0 = start.getD a 0 + nv.shape.getD a 0 := by
        have p1 : a < start.length := by omega
        have p2 : a < nv.shape.length := by omega
        simp [List.getD_eq_getElem?_getD, List.getElem?_zipWith, p1, p2]
      omega
    have hul : u.shape.length = start.length := by rw [e3, hl1]
    obtain ⟨w, hw⟩ := c04_slice_succeeds e2.1 (start := start) (stop := List.zipWith (· + ·) start nv.shape)
      (steps := List.replicate start.length 1) (by omega) (by simp [hl1, hl2, e3]) (by simp [hul]) hstop (by simp)
    have hw' := hw
    rw [← hul] at hw'
    obtain ⟨w1, w2, w3⟩ := slice_addr hw'
    have hws : w.shape = nv.shape := by
      rw [w2, sliceShape_unit (by omega) (by simp [hl1, hl2, e3])]
      apply List.ext_getElem
      · simp [hl1, hl2]
      · intro a p1 p2; simp
    have haff : ∀ i, InB i w.shape → affine start (List.replicate u.shape.length 1) i = List.zipWith (· + ·) start i := by
      intro i hi
      rw [affine_unit (by omega) (by rw [InB.length hi, hws, hl2, e3])]
    have hadd : ∀ i j : Index, i.length = start.length → j.length = start.length →
        List.zipWith (· + ·) start i = List.zipWith (· + ·) start j → i = j := by
      intro i j hi hj h
      apply List.ext_getElem (by omega)
      intro a p1 p2
      have h3 := congrArg (fun l : List Nat => l.getD a 0) h
      have p3 : a < start.length := by omega
      simpa [List.getD_eq_getElem?_getD, List.getElem?_zipWith, p1, p2, p3] using h3
    have hwl : w.shape.length = start.length := by rw [hws, hl2, hl1]
    have hwinj : w.Inj := by
      intro i j hi hj h
      rw [(w3 i hi).2, (w3 j hj).2] at h
      have := e4 _ _ (w3 i hi).1 (w3 j hj).1 h
      rw [haff i hi, haff j hj] at this
      exact hadd i j (by rw [InB.length hi, hwl]) (by rw [InB.length hj, hwl]) this
    have hwv : w.Valid b := ⟨w1, fun i hi => by rw [View.get, (w3 i hi).2]; exact e2.2 _ (w3 i hi).1⟩
    obtain ⟨d', c1, c2, c3, c4⟩ := copySlice_spec hn hwv hws.symm hwinj
    refine ⟨d', u, ?_, ⟨e2.1, fun i hi => rd_size c2 (e2.2 i hi)⟩, e3, fun i hi => ⟨hin i hi, ?_⟩, fun j hj hno => ?_⟩
    · simp only [hw, c1, Option.bind_some, Option.pure_def]
    · have hi' : InB i w.shape := by rw [hws]; exact hi
      rw [← c3 i hi, View.get, View.get, (w3 i hi').2, haff i hi']
    · rw [← e5 j hj]
      apply c4
      intro i hi h
      rw [(w3 i hi).2] at h
      have := e4 _ _ (w3 i hi).1 (by rw [e3]; exact hj) h
      rw [haff i hi] at this
      exact hno i (by rw [← hws]; exact hi) this.symm

/-- A 2x2 block written into a 3x3 array that is a broadcast of one row. -/
example : updateSlice #[1, 2, 3] ⟨[3, 3], [0, 1], 0⟩ #[7, 8, 9, 6] ⟨[2, 2], [2, 1], 0⟩ [1, 0]
    = some (#[1, 2, 3, 7, 8, 3, 9, 6, 3], ⟨[3, 3], [3, 1], 0⟩) := by decide +kernel

example : ZeroStrideAlias ⟨[3, 3], [0, 1], 0⟩ := fun h => by simp at h

theorem zeroStrideAlias_compact (sh : Shape) (o : Int) : ZeroStrideAlias ⟨sh, makeCompactStrides sh, o⟩ :=
  fun _ => compact_inj sh o

/-! ## linear_gather, linear_scatter -/

theorem mapM_rd {α : Type} {buf : Array α} {f : Nat → Int} {is : List Nat} (h : ∀ i ∈ is, ∃ x, rd buf (f i) = some x) :
    ∃ xs, is.mapM (fun i => rd buf (f i)) = some xs ∧ xs.length = is.length ∧
      ∀ (k i : Nat), is[k]? = some i → xs[k]? = rd buf (f i) := by
  induction is with
  | nil => exact ⟨[], rfl, rfl, fun k i h => by simp at h⟩
  | cons a as ih =>
    obtain ⟨x, hx⟩ := h a (by simp)
    obtain ⟨xs, h1, h2, h3⟩ := ih (fun i hi => h i (by simp [hi]))
    refine ⟨x :: xs, by simp [List.mapM_cons, hx, h1], by simp [h2], fun k i hk => ?_⟩
    cases k with
    | zero => simp only [List.getElem?_cons_zero, Option.some.injEq] at hk ⊢; subst hk; exact hx.symm
    | succ k => simpa using h3 k i (by simpa using hk)

/-- C45 (gather): element `k` of a gather is element `indices[k]` of the vector. -/
theorem c45_gather {α : Type} {buf : Array α} {v : View} {n : Nat} (hv : v.Valid buf) (hs : v.shape = [n])
    {indices : List Nat} (hi : ∀ i ∈ indices, i < n) :
    ∃ b R, linearGather buf v indices = some (b, R) ∧ R.Valid b ∧ R.shape = [indices.length] ∧
      ∀ (k i : Nat), indices[k]? = some i → R.get b [k] = v.get buf [i] := by
  obtain ⟨sh, st, off⟩ := v
  obtain ⟨hw, hr⟩ := hv
  simp only at hs
  subst hs
  obtain ⟨s, rfl⟩ : ∃ s, st = [s] := List.length_eq_one_iff.1 hw
  have haddr : ∀ i : Nat, (⟨[n], [s], off⟩ : View).addr [i] = off + (i : Int) * s := fun i => by
    rw [addr_eq hw]; simp [strideDot]
  obtain ⟨xs, h1, h2, h3⟩ := mapM_rd (buf := buf) (f := fun i => off + (i : Int) * s) (is := indices) (by
    intro i h
    have := hr [i] (.cons (hi i h) .nil)
    rwa [View.get, haddr] at this)
  refine ⟨xs.toArray, ⟨[xs.length], makeCompactStrides [xs.length], 0⟩, ?_, compact_valid (by simp [size]), by simp [h2], ?_⟩
  · simp only [linearGather, h1, Option.bind_eq_bind, Option.bind_some, Option.pure_def]
  · intro k i hk
    have hkl : k < xs.length := by rw [h2]; exact (List.getElem?_eq_some_iff.1 hk).1
    rw [View.get, compact_addr (.cons hkl .nil), View.get, haddr, ← h3 k i hk]
    simp [rd, pos, size]

example : linearGather #[10, 11, 12, 13, 14, 15] ⟨[3], [2], 1⟩ [2, 0, 2, 1]
    = some (#[15, 11, 15, 13], ⟨[4], [1], 0⟩) := by decide +kernel

theorem scatterLoop_spec {α : Type} {nbuf : Array α} {off s nb : Int} {sa : Nat → Int} (is : List Nat) :
    ∀ (p : Nat) (it : Iter) (d : Array α), (is ≠ [] → IterAt nb it p) → p + is.length ≤ size it.shape →
    (∀ idx, InB idx it.shape → nb + strideDot idx it.strides = sa (pos idx it.shape)) →
    (∀ k, p ≤ k → k < p + is.length → ∃ x, rd nbuf (sa k) = some x) →
    (∀ i ∈ is, ∃ y, rd d (off + (i : Int) * s) = some y) →
    ∃ d', scatterLoop nbuf off s is it d = some d' ∧ d'.size = d.size ∧
      (∀ k i : Nat, is[k]? = some i →
        (∀ k' i' : Nat, k < k' → is[k']? = some i' → off + (i' : Int) * s ≠ off + (i : Int) * s) →
        rd d' (off + (i : Int) * s) = rd nbuf (sa (p + k))) ∧
      (∀ q, (∀ i ∈ is, off + (i : Int) * s ≠ q) → rd d' q = rd d q) := by
  induction is with
  | nil => intro p it d _ _ _ _ _; exact ⟨d, rfl, rfl, fun k i h => by simp at h, fun _ _ => rfl⟩
  | cons a as ih =>
    intro p it d hat hle hsa hrs hrd
    simp only [List.length_cons] at hle hrs
    have hat := hat (by simp)
    have hnext := IterAt.next hat
    obtain ⟨n1, n2⟩ := iterNext_shape it
    obtain ⟨_, j, j1, j2, j3, j4⟩ := hat
    have hptr : it.ptr = sa p := by rw [j4, hsa j j2, j3]
    obtain ⟨x, hx⟩ := hrs p (by omega) (by omega)
    obtain ⟨d1, w1, w2, w3, w4⟩ := wr_spec (hrd a (by simp)) x
    obtain ⟨d', e1, e2, e3, e4⟩ := ih (p + 1) it.next d1
      (fun hne => hnext.1 (by have := List.length_pos_iff.2 hne; omega)) (by rw [n1]; omega)
      (by rw [n1, n2]; exact hsa) (fun k h1 h2 => hrs k (by omega) (by omega))
      (fun i hi => rd_size w2 (hrd i (by simp [hi])))
    refine ⟨d', ?_, by omega, ?_, ?_⟩
    · simp only [scatterLoop, Iter.deref, j1, Option.map_some, Option.bind_eq_bind, Option.bind_some, hptr, hx, w1, e1]
    · intro k i hk hlast
      cases k with
      | zero =>
        simp only [List.getElem?_cons_zero, Option.some.injEq] at hk
        subst hk
        rw [e4, w3, Nat.add_zero, hx]
        intro i' hi' heq
        obtain ⟨m, hm⟩ := List.getElem?_of_mem hi'
        exact hlast (m + 1) i' (by omega) (by simpa using hm) heq
      | succ k =>
        rw [e3 k i (by simpa using hk) (fun k' i' h1 h2 => hlast (k' + 1) i' (by omega) (by simpa using h2))]
        congr 2; omega
    · intro q hq
      rw [e4 q (fun i hi => hq i (by simp [hi])), w4 q (fun h => hq a (by simp) h.symm)]

/-- C45 (scatter): into a vector without aliasing, every scattered position holds the value of its last occurrence in
`indices`, every other position is unchanged. -/
theorem c45_scatter_partial {α : Type} {buf nbuf : Array α} {v nv : View} {n : Nat} (hv : v.Valid buf) (hs : v.shape = [n])
    (hinj : v.Inj) (hn : nv.Valid nbuf) {indices : List Nat} (hi : ∀ i ∈ indices, i < n)
    (hlen : indices.length ≤ size nv.shape) :
    ∃ b, linearScatter buf v nbuf nv indices = some b ∧ v.Valid b ∧
      (∀ (k i : Nat) (j : Index), indices[k]? = some i → (∀ k', k < k' → indices[k']? ≠ some i) → InB j nv.shape →
        pos j nv.shape = k → v.get b [i] = nv.get nbuf j) ∧
      (∀ i, i < n → i ∉ indices → v.get b [i] = v.get buf [i]) := by
  obtain ⟨sh, st, off⟩ := v
  obtain ⟨hw, hr⟩ := hv
  simp only at hs
  subst hs
  obtain ⟨s, rfl⟩ : ∃ s, st = [s] := List.length_eq_one_iff.1 hw
  have haddr : ∀ i : Nat, (⟨[n], [s], off⟩ : View).addr [i] = off + (i : Int) * s := fun i => by
    rw [addr_eq hw]; simp [strideDot]
  have hne : ∀ i i' : Nat, i < n → i' < n → off + (i' : Int) * s = off + (i : Int) * s → i' = i := by
    intro i i' h1 h2 h
    rw [← haddr, ← haddr] at h
    simpa using hinj [i'] [i] (.cons h2 .nil) (.cons h1 .nil) h
  have hmem : ∀ {k i : Nat}, indices[k]? = some i → i < n := fun h => hi _ (List.mem_of_getElem? h)
  obtain ⟨it, hit⟩ := iterMk_zero hn.1
  have hat : indices ≠ [] → IterAt nv.offset it 0 ∧ SameLayout it.shape it.strides nv.shape nv.strides := by
    intro h
    have := List.length_pos_iff.2 h
    obtain ⟨it', a, b, c⟩ := iterMk_spec hn.1 (InB_zeros (sh := nv.shape) (by omega))
    rw [hit] at a
    cases a
    rw [pos_zeros] at b
    exact ⟨b, c⟩
  by_cases hnil : indices = []
  · subst hnil
    refine ⟨buf, by simp [linearScatter, View.begin, hit, scatterLoop], ⟨hw, hr⟩, fun k i j h => by simp at h, fun _ _ _ => rfl⟩
  obtain ⟨h1, h2⟩ := hat hnil
  obtain ⟨d', a, b, c, e⟩ := scatterLoop_spec (nbuf := nbuf) (off := off) (s := s) indices 0 it buf (fun _ => h1)
    (by rw [h2.sz]; omega) (posAddr_layout hn.1 h2)
    (fun k _ hk => by
      obtain ⟨i, g1, _, g3⟩ := posAddr_exists (v := nv) (p := k) (by omega)
      rw [g3]; exact hn.2 i g1)
    (fun i h => by
      have := hr [i] (.cons (hi i h) .nil)
      rwa [View.get, haddr] at this)
  refine ⟨d', by simp [linearScatter, View.begin, hit, a], ⟨hw, fun i hi => rd_size b (hr i hi)⟩, ?_, ?_⟩
  · intro k i j hk hlast hj hpos
    rw [View.get, haddr, c k i hk, Nat.zero_add, ← hpos, posAddr_pos hj]
    · rfl
    · intro k' i' h3 h4 heq
      have := hne i i' (hmem hk) (hmem h4) heq
      subst this
      exact hlast k' h3 h4
  · intro i hin hnot
    rw [View.get, haddr, View.get, haddr]
    apply e
    intro i' hi' heq
    have := hne i i' hin (hi i' hi') heq
    subst this
    exact hnot hi'

example : linearScatter #[10, 11, 12, 13, 14, 15] ⟨[3], [2], 1⟩ #[7, 8, 9] ⟨[3], [1], 0⟩ [2, 0, 2]
    = some #[10, 8, 12, 13, 14, 9] := by decide +kernel

/-- Finding: unlike `update_slice`, `linear_scatter` does not materialise a broadcast vector first, so writing one
position changes all of them. -/
theorem c45_scatter_broadcast {α : Type} (x y : α) (n : Nat) :
    ∃ b, linearScatter #[x] ⟨[n], [0], 0⟩ #[y] ⟨[1], [0], 0⟩ [0] = some b ∧
      ∀ i, (⟨[n], [0], 0⟩ : View).get b [i] = some y := by
  refine ⟨#[y], rfl, fun i => ?_⟩
  simp [View.get, View.addr, calcFlattenOffset, strideDot, rd]

end Spu.Props

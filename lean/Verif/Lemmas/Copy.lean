import Verif.Model.NdCopy
import Verif.Lemmas.Iter
import Verif.Props.NdArray

set_option autoImplicit false

/-! # Lemmas about copy loops -/

namespace Spu
open Model Spec

theorem rd_bounds {α : Type} {d : Array α} {q : Int} {x : α} (h : rd d q = some x) : 0 ≤ q ∧ q.toNat < d.size := by
  unfold rd at h
  split at h
  · cases h
  · obtain ⟨h', _⟩ := Array.getElem?_eq_some_iff.1 h
    exact ⟨by omega, h'⟩

theorem rd_of_bounds {α : Type} {d : Array α} {q : Int} (h0 : 0 ≤ q) (h1 : q.toNat < d.size) : ∃ x, rd d q = some x := by
  refine ⟨d[q.toNat], ?_⟩
  unfold rd
  rw [if_neg (by omega)]
  simp [h1]

theorem wr_spec {α : Type} {d : Array α} {q : Int} (h : ∃ y, rd d q = some y) (x : α) :
    ∃ d', wr d q x = some d' ∧ d'.size = d.size ∧ rd d' q = some x ∧ ∀ q', q' ≠ q → rd d' q' = rd d q' := by
  obtain ⟨y, hy⟩ := h
  obtain ⟨h0, h1⟩ := rd_bounds hy
  refine ⟨d.set q.toNat x, ?_, by simp, ?_, ?_⟩
  · unfold wr
    rw [if_neg (by omega), dif_pos h1]
  · unfold rd
    rw [if_neg (by omega)]
    simp [h1]
  · intro q' hq
    unfold rd
    split
    · rfl
    · rw [Array.getElem?_set_ne]
      omega

theorem rd_size {α : Type} {d d' : Array α} (h : d'.size = d.size) {q : Int} (hq : ∃ y, rd d q = some y) :
    ∃ y, rd d' q = some y := by
  obtain ⟨y, hy⟩ := hq
  obtain ⟨h0, h1⟩ := rd_bounds hy
  exact rd_of_bounds h0 (by omega)

/-- Copy loop, in terms of the address `sa p` / `da p` of the element at row-major position `p`. -/
theorem copySliceLoop_spec {α : Type} {sbuf : Array α} {sb db : Int} {sa da : Nat → Int} {n : Nat} :
    ∀ {si di : Iter} {p : Nat} {d : Array α},
    (0 < n → IterAt sb si p) → (0 < n → IterAt db di p) → p + n ≤ size si.shape → p + n ≤ size di.shape →
    (∀ idx, InB idx si.shape → sb + strideDot idx si.strides = sa (pos idx si.shape)) →
    (∀ idx, InB idx di.shape → db + strideDot idx di.strides = da (pos idx di.shape)) →
    (∀ k, p ≤ k → k < p + n → ∃ x, rd sbuf (sa k) = some x) →
    (∀ k, p ≤ k → k < p + n → ∃ x, rd d (da k) = some x) →
    (∀ k k', p ≤ k → k < p + n → p ≤ k' → k' < p + n → da k = da k' → k = k') →
    ∃ d', copySliceLoop sbuf n si di d = some d' ∧ d'.size = d.size ∧
      (∀ k, p ≤ k → k < p + n → rd d' (da k) = rd sbuf (sa k)) ∧
      (∀ q, (∀ k, p ≤ k → k < p + n → da k ≠ q) → rd d' q = rd d q) := by
  induction n with
  | zero => intro si di p d _ _ _ _ _ _ _ _ _; exact ⟨d, rfl, rfl, fun k _ _ => by omega, fun _ _ => rfl⟩
  | succ n ih =>
    intro si di p d hs hd hls hld hsa hda hrs hrd hinj
    obtain ⟨hs1, hs2⟩ := iterNext_shape si
    obtain ⟨hd1, hd2⟩ := iterNext_shape di
    have hs' := hs (by omega)
    have hd' := hd (by omega)
    have hsn := IterAt.next hs'
    have hdn := IterAt.next hd'
    obtain ⟨_, i, i1, i2, i3, i4⟩ := hs'
    obtain ⟨_, j, j1, j2, j3, j4⟩ := hd'
    have ea : si.ptr = sa p := by rw [i4, hsa i i2, i3]
    have eb : di.ptr = da p := by rw [j4, hda j j2, j3]
    obtain ⟨x, hx⟩ := hrs p (by omega) (by omega)
    obtain ⟨d1, w1, w2, w3, w4⟩ := wr_spec (hrd p (by omega) (by omega)) x
    obtain ⟨d', a, b, c, e⟩ := ih (si := si.next) (di := di.next) (p := p + 1) (d := d1)
      (fun _ => hsn.1 (by omega)) (fun _ => hdn.1 (by omega)) (by rw [hs1]; omega) (by rw [hd1]; omega)
      (by rw [hs1, hs2]; exact hsa) (by rw [hd1, hd2]; exact hda)
      (fun k h1 h2 => hrs k (by omega) (by omega))
      (fun k h1 h2 => rd_size w2 (hrd k (by omega) (by omega)))
      (fun k k' h1 h2 h3 h4 => hinj k k' (by omega) (by omega) (by omega) (by omega))
    refine ⟨d', ?_, by omega, ?_, ?_⟩
    · simp only [copySliceLoop, Iter.deref, i1, j1, Option.map_some, Option.bind_eq_bind, Option.bind_some, ea, eb, hx,
        w1, a]
    · intro k h1 h2
      rcases Nat.eq_or_lt_of_le h1 with rfl | hlt
      · rw [e, w3, hx]
        intro k h3 h4 heq
        have := hinj k p (by omega) (by omega) (by omega) (by omega) heq
        omega
      · exact c k (by omega) (by omega)
    · intro q hq
      rw [e q (fun k h3 h4 => hq k (by omega) (by omega)), w4 q (fun h => hq p (by omega) (by omega) h.symm)]

/-- Distinct valid indices have distinct addresses. -/
def _root_.Spu.Model.View.Inj (v : View) : Prop :=
  ∀ i j, InB i v.shape → InB j v.shape → v.addr i = v.addr j → i = j

/-- Address of the element at row-major position `p`. -/
def posAddr (v : View) (p : Nat) : Int := ((unflattenIndex p v.shape).map v.addr).getD 0

theorem posAddr_pos {v : View} {i : Index} (h : InB i v.shape) : posAddr v (pos i v.shape) = v.addr i := by
  simp [posAddr, unflatten_of_InB h]

theorem posAddr_exists {v : View} {p : Nat} (h : p < size v.shape) :
    ∃ i, InB i v.shape ∧ pos i v.shape = p ∧ posAddr v p = v.addr i := by
  obtain ⟨i, h1, h2, h3⟩ := unflattenIndex_spec h
  exact ⟨i, h2, h3, by rw [← h3]; exact posAddr_pos h2⟩

theorem posAddr_layout {v : View} (hv : v.WF) {it : Iter}
    (h : SameLayout it.shape it.strides v.shape v.strides) :
    ∀ idx, InB idx it.shape → v.offset + strideDot idx it.strides = posAddr v (pos idx it.shape) := by
  intro idx hi
  obtain ⟨i, h1, h2, h3⟩ := posAddr_exists (v := v) (p := pos idx it.shape) (by rw [← h.sz]; exact pos_lt_size hi)
  rw [h3, addr_eq hv, h.eq _ _ hi h1 h2.symm]

theorem iterMk_zero {v : View} (hv : v.WF) : ∃ it, Iter.mk' v (List.replicate v.shape.length 0) = some it := by
  rcases Nat.eq_zero_or_pos (size v.shape) with h0 | hp
  · obtain ⟨it, _, h, _⟩ := readAll_spec (α := Unit) (v := v) (buf := #[])
      ⟨hv, fun idx h => by have := size_pos_of_InB h; omega⟩
    exact ⟨it, h⟩
  · obtain ⟨it, h, _⟩ := iterMk_spec hv (InB_zeros hp)
    exact ⟨it, h⟩

theorem copySlice_spec {α : Type} {sbuf dbuf : Array α} {src dst : View} (hs : src.Valid sbuf) (hd : dst.Valid dbuf)
    (hshape : src.shape = dst.shape) (hinj : dst.Inj) :
    ∃ d', copySlice sbuf src dbuf dst (List.replicate src.shape.length 0) (List.replicate dst.shape.length 0)
        (numel src.shape) = some d' ∧ d'.size = dbuf.size ∧
      (∀ i, InB i src.shape → dst.get d' i = src.get sbuf i) ∧
      (∀ q, (∀ i, InB i dst.shape → dst.addr i ≠ q) → rd d' q = rd dbuf q) := by
  obtain ⟨hsw, hsr⟩ := hs
  obtain ⟨hdw, hdr⟩ := hd
  unfold copySlice
  rw [numel_eq_size]
  rcases Nat.eq_zero_or_pos (size src.shape) with h0 | hp
  · obtain ⟨a, ha⟩ := iterMk_zero hsw
    obtain ⟨b, hb⟩ := iterMk_zero hdw
    refine ⟨dbuf, ?_, rfl, fun i hi => ?_, fun _ _ => rfl⟩
    · rw [ha, hb, h0]; rfl
    · have := size_pos_of_InB hi; omega
  · obtain ⟨si, s1, s2, s3⟩ := iterMk_spec hsw (InB_zeros hp)
    obtain ⟨di, d1, d2, d3⟩ := iterMk_spec hdw (InB_zeros (by rw [← hshape]; exact hp))
    rw [pos_zeros] at s2 d2
    obtain ⟨d', a, b, c, e⟩ := copySliceLoop_spec (sbuf := sbuf) (d := dbuf) (n := size src.shape) (p := 0)
      (sa := posAddr src) (da := posAddr dst)
      (fun _ => s2) (fun _ => d2) (by rw [s3.sz]; omega) (by rw [d3.sz, hshape]; omega)
      (posAddr_layout hsw s3) (posAddr_layout hdw d3)
      (fun k _ hk => by
        obtain ⟨i, h1, _, h3⟩ := posAddr_exists (v := src) (p := k) (by omega)
        rw [h3]; exact hsr i h1)
      (fun k _ hk => by
        obtain ⟨i, h1, _, h3⟩ := posAddr_exists (v := dst) (p := k) (by rw [← hshape]; omega)
        rw [h3]; exact hdr i h1)
      (fun k k' _ hk _ hk' heq => by
        obtain ⟨i, h1, h2, h3⟩ := posAddr_exists (v := dst) (p := k) (by rw [← hshape]; omega)
        obtain ⟨i', h1', h2', h3'⟩ := posAddr_exists (v := dst) (p := k') (by rw [← hshape]; omega)
        rw [h3, h3'] at heq
        rw [← h2, ← h2', hinj i i' h1 h1' heq])
    refine ⟨d', ?_, b, fun i hi => ?_, fun q hq => e q fun k _ hk => ?_⟩
    · rw [s1, d1]; exact a
    · have := c (pos i src.shape) (by omega) (by have := pos_lt_size hi; omega)
      rw [posAddr_pos hi] at this
      rw [hshape] at this hi
      rw [posAddr_pos hi] at this
      exact this
    · obtain ⟨i, h1, _, h3⟩ := posAddr_exists (v := dst) (p := k) (by rw [← hshape]; omega)
      rw [h3]; exact hq i h1

/-- Unit-step slice at address level. -/
theorem slice_addr {v w : View} {start stop : Index}
    (hs : v.slice start stop (some (List.replicate v.shape.length 1)) = some w) :
    w.WF ∧ w.shape = sliceShape start stop (List.replicate v.shape.length 1) ∧
    ∀ i, InB i w.shape → InB (affine start (List.replicate v.shape.length 1) i) v.shape ∧
      w.addr i = v.addr (affine start (List.replicate v.shape.length 1) i) := by
  unfold View.slice at hs
  simp only [Option.map_eq_some_iff] at hs
  obtain ⟨r, hr, rfl⟩ := hs
  obtain ⟨h1, h2, h3, h4⟩ := sliceAxes_spec hr (by simp [effSteps])
  have hwf : (⟨r.map Prod.fst, r.map Prod.snd, v.addr start⟩ : View).WF := by simp [View.WF]
  refine ⟨hwf, h3, fun i hi => ?_⟩
  obtain ⟨m1, m2⟩ := h4 i hi
  refine ⟨m1, ?_⟩
  have hv : v.WF := h2
  rw [addr_eq hwf]
  simp only [addr_eq hv]
  simp only [effSteps, Option.getD_some] at m2
  rw [← m2]
  ring

theorem compact_WF (sh : Shape) (o : Int) : (⟨sh, makeCompactStrides sh, o⟩ : View).WF := makeCompactStrides_length sh

theorem compact_addr {sh : Shape} {o : Int} {i : Index} (h : InB i sh) :
    (⟨sh, makeCompactStrides sh, o⟩ : View).addr i = o + pos i sh := by
  rw [addr_eq (compact_WF sh o)]; simp only [strideDot_compact h]

theorem compact_inj (sh : Shape) (o : Int) : (⟨sh, makeCompactStrides sh, o⟩ : View).Inj := by
  intro i j hi hj h
  rw [compact_addr hi, compact_addr hj] at h
  exact pos_inj hi hj (by omega)

theorem compact_valid {α : Type} {sh : Shape} {b : Array α} (h : b.size = size sh) :
    (⟨sh, makeCompactStrides sh, 0⟩ : View).Valid b := by
  refine ⟨compact_WF sh 0, fun i hi => ?_⟩
  have hi' : InB i sh := hi
  rw [View.get, compact_addr hi']
  exact rd_of_bounds (by omega) (by have := pos_lt_size hi'; omega)

theorem sliceShape_unit {b e : List Nat} {n : Nat} (hb : b.length = n) (he : e.length = n) :
    sliceShape b e (List.replicate n 1) = List.zipWith (fun x y => y - x) b e := by
  induction n generalizing b e with
  | zero => cases b <;> simp_all [sliceShape]
  | succ n ih =>
    cases b with
    | nil => simp at hb
    | cons b bs => cases e with
      | nil => simp at he
      | cons e es =>
        simp only [List.replicate_succ, sliceShape, List.zipWith_cons_cons]
        rw [ih (by simpa using hb) (by simpa using he)]
        simp

theorem affine_unit {b i : List Nat} {n : Nat} (hb : b.length = n) (hi : i.length = n) :
    affine b (List.replicate n 1) i = List.zipWith (· + ·) b i := by
  induction n generalizing b i with
  | zero => cases b <;> simp_all [affine]
  | succ n ih =>
    cases b with
    | nil => simp at hb
    | cons b bs => cases i with
      | nil => simp at hi
      | cons i is =>
        simp only [List.replicate_succ, affine, List.zipWith_cons_cons]
        rw [ih (by simpa using hb) (by simpa using hi)]
        simp

/-- One iteration of `concatenate`: an operand that agrees with the result off the axis is copied to the range
`[s, s + extent)` of the axis, nothing else changes. -/
theorem concat_step {α : Type} {sh : Shape} {axis : Nat} (ha : axis < sh.length) {o : Array α × View} {buf : Array α}
    {s : Nat} (ho : o.2.Valid o.1) (hsh : o.2.shape = sh.set axis (o.2.shape.getD axis 0))
    (hb : buf.size = size sh) (hle : s + o.2.shape.getD axis 0 ≤ sh.getD axis 0) :
    ∃ w buf', (⟨sh, makeCompactStrides sh, 0⟩ : View).slice ((List.replicate sh.length 0).set axis s)
        (sh.set axis (s + o.2.shape.getD axis 0)) (some (List.replicate sh.length 1)) = some w ∧
      copySlice o.1 o.2 buf w (List.replicate sh.length 0) (List.replicate sh.length 0) (numel o.2.shape) = some buf' ∧
      buf'.size = size sh ∧
      (∀ i, InB i o.2.shape → InB (i.set axis (s + i.getD axis 0)) sh ∧
        (⟨sh, makeCompactStrides sh, 0⟩ : View).get buf' (i.set axis (s + i.getD axis 0)) = o.2.get o.1 i) ∧
      (∀ j, InB j sh → (j.getD axis 0 < s ∨ s + o.2.shape.getD axis 0 ≤ j.getD axis 0) →
        (⟨sh, makeCompactStrides sh, 0⟩ : View).get buf' j = (⟨sh, makeCompactStrides sh, 0⟩ : View).get buf j) := by
  generalize he : o.2.shape.getD axis 0 = e at *
  have hstop : ∀ a, a < sh.length → (sh.set axis (s + e)).getD a 0 ≤ sh.getD a 0 := by
    intro a ha'
    simp only [List.getD_eq_getElem?_getD, List.getElem?_set] at hle ⊢
    split
    · subst_vars; simp [ha'] at hle ⊢; exact hle
    · exact le_rfl
  obtain ⟨w, hw⟩ : ∃ w, (⟨sh, makeCompactStrides sh, 0⟩ : View).slice ((List.replicate sh.length 0).set axis s)
      (sh.set axis (s + e)) (some (List.replicate sh.length 1)) = some w :=
    Props.c04_slice_succeeds (compact_WF sh 0) (by simp) (by simp) (by simp) hstop (by simp)
  obtain ⟨w1, w2, w3⟩ := slice_addr hw
  simp only at w2 w3
  rw [sliceShape_unit (by simp) (by simp)] at w2
  have hws : w.shape = o.2.shape := by
    rw [w2, hsh]
    apply List.ext_getElem
    · simp
    · intro a h1 h2
      simp only [List.getElem_zipWith, List.getElem_set, List.getElem_replicate]
      split <;> omega
  have haff : ∀ i : Index, InB i w.shape → affine ((List.replicate sh.length 0).set axis s) (List.replicate sh.length 1) i
      = i.set axis (s + i.getD axis 0) := by
    intro i hi
    have hil : i.length = sh.length := by rw [InB.length hi, hws, hsh]; simp
    rw [affine_unit (by simp) hil]
    apply List.ext_getElem
    · simp [hil]
    · intro a h1 h2
      simp only [List.getElem_zipWith, List.getElem_set, List.getElem_replicate]
      have : a < i.length := by simpa using h2
      split
      · subst_vars; simp [this]
      · omega
  have hinj : w.Inj := by
    intro i j hi hj h
    rw [(w3 i hi).2, (w3 j hj).2] at h
    have := compact_inj sh 0 _ _ (w3 i hi).1 (w3 j hj).1 h
    rw [haff i hi, haff j hj] at this
    have hil : i.length = sh.length := by rw [InB.length hi, hws, hsh]; simp
    have hjl : j.length = sh.length := by rw [InB.length hj, hws, hsh]; simp
    apply List.ext_getElem (by omega)
    intro a h1 h2
    have h3 := congrArg (fun l : List Nat => l.getD a 0) this
    simp only [List.getD_eq_getElem?_getD, List.getElem?_set] at h3
    by_cases hax : axis = a
    · subst hax; simp [h1, h2] at h3; exact h3
    · simpa [hax, h1, h2] using h3
  have hval : w.Valid buf := by
    refine ⟨w1, fun i hi => ?_⟩
    rw [View.get, (w3 i hi).2]
    exact (compact_valid hb).2 _ (w3 i hi).1
  have hlen : o.2.shape.length = sh.length := by rw [hsh]; simp
  have hlen' : w.shape.length = sh.length := by rw [hws, hlen]
  obtain ⟨d', c1, c2, c3, c4⟩ := copySlice_spec ho hval hws.symm hinj
  rw [hlen, hlen'] at c1
  refine ⟨w, d', hw, c1, by omega, fun i hi => ?_, fun j hj hr => ?_⟩
  · have hi' : InB i w.shape := by rw [hws]; exact hi
    have := w3 i hi'
    rw [haff i hi'] at this
    refine ⟨this.1, ?_⟩
    rw [← c3 i hi, View.get, View.get, this.2]
  · apply c4
    intro i hi h
    rw [(w3 i hi).2] at h
    have := compact_inj sh 0 _ _ (w3 i hi).1 hj h
    rw [haff i hi] at this
    have hil : i.length = sh.length := by rw [InB.length hi, hlen']
    have hb := ((InB_iff _ _).1 hi).2 axis (by omega)
    rw [hws, he] at hb
    rw [← this] at hr
    simp only [List.getD_eq_getElem?_getD, List.getElem?_set] at hr hb
    simp [hil, ha] at hr hb
    omega

end Spu

import Verif.Lemmas.Views
import Verif.Props.Shape
import Mathlib.Algebra.BigOperators.Group.List.Basic

set_option autoImplicit false

/-!
# C03 – C07 : strided views

`View.get buf v idx` is the observable read `arr.at(idx)`; `none` is an access outside the buffer.
`View.Valid buf v`: the view is well formed and every valid index reads an element of the buffer.
-/

namespace Spu.Props
open Model Spec

/-- C03: linear indexing (fast path included) reads the element at the p-th multi-index in row-major order. -/
theorem c03_linear_index {v : View} (hv : v.WF) {idx : Index} (hi : InB idx v.shape) :
    v.addrLin (pos idx v.shape) = some (v.addr idx) := by
  unfold View.addrLin
  dsimp only
  split
  · rename_i hf
    have := fast_linear hv (lin := (canUseFastIndexing v.shape v.strides).2) (by rw [← hf])
    rw [addr_eq hv, this.2 idx hi]
    congr 1; ring
  · rw [unflatten_of_InB hi]; rfl

/-- The fast path is really taken (stride 2 view) and really refused (row-skipping view), as in the code comment. -/
example : (canUseFastIndexing [3, 4] [8, 2]) = (true, 2) ∧ (canUseFastIndexing [3, 4] [16, 2]).1 = false ∧
    InB [2, 1] [3, 4] := ⟨by decide, by decide, .cons (by decide) (.cons (by decide) .nil)⟩

/-- C03 (iteration): iterating a valid view from `begin()` yields all elements in row-major order,
never leaving the buffer. -/
theorem c03_iterate {α : Type} {v : View} {buf : Array α} (hv : v.Valid buf) :
    ∃ it xs, v.begin = some it ∧ iterRead buf it (numel v.shape) = some xs ∧ xs.length = size v.shape ∧
      ∀ idx, InB idx v.shape → v.get buf idx = xs[pos idx v.shape]? := readAll_spec hv

/-- C03 (iteration end): after `numel` increments the iterator equals `end()` (no index), not before. -/
theorem c03_iterate_end {v : View} (hv : v.WF) (hp : 0 < size v.shape) :
    ∃ it, v.begin = some it ∧ ∀ n, (n < size v.shape → (Nat.repeat Iter.next n it).index.isSome) ∧
      (n = size v.shape → (Nat.repeat Iter.next n it).index = none) := by
  obtain ⟨it, h1, h2, h3⟩ := iterMk_spec hv (InB_zeros hp)
  rw [pos_zeros] at h2
  refine ⟨it, h1, ?_⟩
  have key : ∀ n, n < size v.shape →
      IterAt v.offset (Nat.repeat Iter.next n it) n ∧ (Nat.repeat Iter.next n it).shape = it.shape := by
    intro n
    induction n with
    | zero => intro _; exact ⟨h2, rfl⟩
    | succ n ih =>
      intro hn
      obtain ⟨a, b⟩ := ih (by omega)
      refine ⟨(IterAt.next a).1 (by rw [b, h3.sz]; exact hn), ?_⟩
      show (Iter.next _).shape = _
      rw [(iterNext_shape _).1, b]
  intro n
  constructor
  · intro hn
    obtain ⟨⟨_, idx, e, _⟩, _⟩ := key n hn
    rw [e]; rfl
  · intro hn
    obtain ⟨m, rfl⟩ : ∃ m, n = m + 1 := ⟨n - 1, by omega⟩
    obtain ⟨a, b⟩ := key m (by omega)
    exact (IterAt.next a).2 (by rw [b, h3.sz]; exact hn)

example : (⟨[2, 2], [-1, 4], 1⟩ : View).Valid #[10, 11, 12, 13, 14, 15] := by
  refine ⟨rfl, fun idx h => ?_⟩
  cases h with
  | cons h h' => cases h' with
    | cons h' h'' =>
      cases h''
      have : ∀ a < 2, ∀ b < 2, ∃ x, (⟨[2, 2], [-1, 4], 1⟩ : View).get #[10, 11, 12, 13, 14, 15] [a, b] = some x := by
        intro a ha b hb
        have h1 : a = 0 ∨ a = 1 := by omega
        have h2 : b = 0 ∨ b = 1 := by omega
        rcases h1 with rfl | rfl <;> rcases h2 with rfl | rfl <;> exact ⟨_, rfl⟩
      exact this _ h _ h'

/-- C04: a slice has the documented extents, and its element `i` is element `start + i*step` of the source,
which is a valid source index. -/
theorem c04_slice {α : Type} {v w : View} {start stop : Index} {steps : Option (List Nat)}
    (hk : ∀ k ∈ effSteps steps v.shape.length, 0 < k) (hs : v.slice start stop steps = some w) :
    w.WF ∧ w.shape = sliceShape start stop (effSteps steps v.shape.length) ∧
    ∀ (buf : Array α) i, InB i w.shape →
      InB (affine start (effSteps steps v.shape.length) i) v.shape ∧
      w.get buf i = v.get buf (affine start (effSteps steps v.shape.length) i) := by
  unfold View.slice at hs
  simp only [Option.map_eq_some_iff] at hs
  obtain ⟨r, hr, rfl⟩ := hs
  obtain ⟨h1, h2, h3, h4⟩ := sliceAxes_spec hr hk
  have hwf : (⟨r.map Prod.fst, r.map Prod.snd, v.addr start⟩ : View).WF := by simp [View.WF]
  refine ⟨hwf, h3, fun buf i hi => ?_⟩
  obtain ⟨m1, m2⟩ := h4 i hi
  refine ⟨m1, ?_⟩
  have hv : v.WF := h2
  unfold View.get
  rw [addr_eq hwf]
  simp only [addr_eq hv]
  rw [← m2]
  congr 1; ring

/-- C04 (success): slicing succeeds whenever ranks match, stops are within the extents and steps are positive. -/
theorem c04_slice_succeeds {v : View} (hv : v.WF) {start stop steps : List Nat}
    (h1 : start.length = v.shape.length) (h2 : stop.length = v.shape.length) (h3 : steps.length = v.shape.length)
    (h4 : ∀ a, a < v.shape.length → stop.getD a 0 ≤ v.shape.getD a 0) (hk : ∀ k ∈ steps, 0 < k) :
    ∃ w, v.slice start stop (some steps) = some w := by
  suffices ∃ r, sliceAxes v.shape v.strides start stop (some steps) = some r by
    obtain ⟨r, hr⟩ := this; exact ⟨_, by simp [View.slice, hr]; rfl⟩
  unfold View.WF at hv
  obtain ⟨sh, st, o⟩ := v
  simp only at *
  induction sh generalizing st start stop steps with
  | nil =>
    simp only [List.length_nil, List.length_eq_zero_iff] at *
    subst h1 h2 h3 hv
    exact ⟨[], rfl⟩
  | cons d ds ih =>
    cases st with
    | nil => simp at hv
    | cons s ss => cases start with
      | nil => simp at h1
      | cons b bs => cases stop with
        | nil => simp at h2
        | cons e es => cases steps with
          | nil => simp at h3
          | cons k ks =>
            obtain ⟨r, hr⟩ := ih (start := bs) (stop := es) (steps := ks) (fun x hx => hk x (by simp [hx])) ss
              (by simpa using hv) (by simpa using h1) (by simpa using h2) (by simpa using h3)
              (fun a ha => by simpa using h4 (a + 1) (by simpa using ha))
            have h0 : e ≤ d := by simpa using h4 0 (by simp)
            have hk0 := hk k (by simp)
            have : ∃ a, sliceAxis d s b e (some k) = some a := by
              unfold sliceAxis
              rw [if_neg (by omega)]
              dsimp only
              split
              · exact ⟨_, rfl⟩
              · rw [if_neg (by omega)]; exact ⟨_, rfl⟩
            obtain ⟨a, ha⟩ := this
            exact ⟨a :: r, by simp [sliceAxes, ha, hr]⟩

example : (⟨[4, 5], [5, 1], 0⟩ : View).slice [1, 0] [4, 5] (some [2, 3]) = some ⟨[2, 2], [10, 3], 5⟩ := by decide

/-- C04 (scalar slice). -/
theorem c04_slice_scalar {α : Type} (v : View) (buf : Array α) (idx : Index) :
    (v.sliceScalarAt idx).get buf [] = v.get buf idx := by
  unfold View.get View.sliceScalarAt
  congr 1
  simp [View.addr, calcFlattenOffset, strideDot]

/-- C05 (transpose): transposing by an axis permutation succeeds; the element at the permuted index is the source element,
and every valid result index is the permuted index of a valid source index. -/
theorem c05_transpose {α : Type} {v : View} (hv : v.WF) {perm : List Nat}
    (hl : perm.length = v.shape.length) (hn : perm.Nodup) (hb : ∀ a ∈ perm, a < v.shape.length) :
    ∃ w, v.transpose perm = some w ∧ w.WF ∧ w.shape = permuted perm v.shape ∧
      (∀ (buf : Array α) idx, InB idx v.shape →
        InB (permuted perm idx) w.shape ∧ w.get buf (permuted perm idx) = v.get buf idx) ∧
      (∀ j, InB j w.shape → ∃ idx, InB idx v.shape ∧ j = permuted perm idx) := by
  have hst : perm.mapM (fun a => v.strides[a]?) = some (perm.map (fun a => v.strides.getD a 0)) :=
    mapM_getElem_some _ _ 0 (by rw [hv]; exact hb)
  refine ⟨⟨permuted perm v.shape, perm.map (fun a => v.strides.getD a 0), v.offset⟩, ?_, ?_, rfl, ?_, ?_⟩
  · unfold View.transpose
    rw [if_neg (by omega), if_neg (by simpa using hn), mapM_getElem_some v.shape perm 0 hb, hst]
    rfl
  · simp [View.WF, permuted]
  · intro buf idx hi
    have hi' := (InB_iff _ _).1 hi
    constructor
    · rw [InB_iff]
      refine ⟨by simp [permuted], fun a ha => ?_⟩
      simp only [permuted, List.length_map] at ha
      rw [getD_map_perm _ _ _ ha, getD_map_perm _ _ _ ha]
      exact hi'.2 _ (hb _ (by rw [List.getD_eq_getElem _ _ ha]; exact List.getElem_mem ha))
    · unfold View.get
      rw [addr_eq (by simp [View.WF, permuted]), addr_eq hv]
      congr 2
      rw [strideDot_eq_sum _ _ (by simp [permuted]), strideDot_eq_sum _ _ (by rw [hi'.1, hv])]
      rw [List.length_map]
      have : ((List.range perm.length).map fun a =>
          (((permuted perm idx).getD a 0 : Nat) : Int) * (perm.map (fun a => v.strides.getD a 0)).getD a 0) =
          (List.range perm.length).map fun a =>
            (fun m => ((idx.getD m 0 : Nat) : Int) * v.strides.getD m 0) (perm.getD a 0) := by
        apply List.map_congr_left
        intro a ha
        rw [List.mem_range] at ha
        rw [getD_map_perm _ _ _ ha]
        simp [List.getD_eq_getElem?_getD, ha]
      rw [this, sum_zip_perm perm (fun m => ((idx.getD m 0 : Nat) : Int) * v.strides.getD m 0)]
      have hp := perm_range (n := v.strides.length) (by rw [hl, hv]) hn (by rw [hv]; exact hb)
      exact (hp.map _).sum_eq
  · intro j hj
    have hj' := (InB_iff _ _).1 hj
    simp only [permuted, List.length_map] at hj'
    -- the inverse: axis m of the source is at position (perm.idxOf m) of the result
    refine ⟨(List.range v.shape.length).map (fun m => j.getD (perm.idxOf m) 0), ?_, ?_⟩
    · rw [InB_iff]
      refine ⟨by simp, fun a ha => ?_⟩
      have hp := perm_range hl hn hb
      have hmem : a ∈ perm := hp.mem_iff.2 (List.mem_range.2 ha)
      have hlt := List.idxOf_lt_length_of_mem hmem
      have := hj'.2 _ hlt
      rw [show (perm.map fun a => v.shape.getD a 0).getD (perm.idxOf a) 0 = v.shape.getD a 0 by
        simp [List.getD_eq_getElem?_getD, hlt]] at this
      simpa [List.getD_eq_getElem?_getD, ha] using this
    · apply List.ext_getElem
      · simp [permuted, hj'.1]
      · intro i h1 h2
        have h1' : i < perm.length := by omega
        have hlt := hb _ (List.getElem_mem h1')
        simp only [permuted, List.getElem_map]
        rw [List.getD_eq_getElem _ _ (by simpa using hlt)]
        simp only [List.getElem_map, List.getElem_range]
        rw [List.Nodup.idxOf_getElem hn]
        exact (List.getD_eq_getElem _ _ h1).symm

example : (⟨[2, 3], [3, 1], 0⟩ : View).transpose [1, 0] = some ⟨[3, 2], [1, 3], 0⟩ := by decide

/-- C05 (reverse): reversing distinct axes succeeds, keeps the shape, and reads the mirrored element,
whose index is valid. -/
theorem c05_reverse {α : Type} {v : View} (hv : v.WF) {dims : List Nat} (hn : dims.Nodup)
    (hb : ∀ a ∈ dims, a < v.shape.length) :
    ∃ w, v.reverse dims = some w ∧ w.WF ∧ w.shape = v.shape ∧
      ∀ (buf : Array α) idx, InB idx v.shape →
        InB (mirror dims v.shape idx) v.shape ∧ w.get buf idx = v.get buf (mirror dims v.shape idx) := by
  obtain ⟨w, h1, h2, h3, h4⟩ := reverse_spec hv hn hb
  refine ⟨w, h1, h2, h3, fun buf idx hi => ⟨mirror_InB hi, ?_⟩⟩
  unfold View.get
  rw [addr_eq h2, addr_eq hv, h4 idx hi]

/-- C05 (reverse is an involution on elements). -/
theorem c05_reverse_twice {α : Type} {v w u : View} (hv : v.WF) {dims : List Nat} (hn : dims.Nodup)
    (hb : ∀ a ∈ dims, a < v.shape.length) (h1 : v.reverse dims = some w) (h2 : w.reverse dims = some u) :
    u.shape = v.shape ∧ ∀ (buf : Array α) idx, InB idx v.shape → u.get buf idx = v.get buf idx := by
  obtain ⟨w', a1, a2, a3, a4⟩ := c05_reverse (α := α) hv hn hb
  obtain rfl : w' = w := Option.some.inj (a1.symm.trans h1)
  obtain ⟨u', b1, b2, b3, b4⟩ := c05_reverse (α := α) a2 hn (by rw [a3]; exact hb)
  obtain rfl : u' = u := Option.some.inj (b1.symm.trans h2)
  refine ⟨b3.trans a3, fun buf idx hi => ?_⟩
  have hm := (a4 buf idx hi).1
  rw [(b4 buf idx (by rw [a3]; exact hi)).2, a3, (a4 buf _ hm).2, mirror_mirror hi]

example : (⟨[2, 3], [3, 1], 0⟩ : View).reverse [1] = some ⟨[2, 3], [3, -1], 2⟩ := by decide

/-! ## C06 -/

/-- Stride invariant of size-1 axes. -/
def OnesZero (v : View) : Prop := ∀ a, a < v.shape.length → v.shape.getD a 0 = 1 → v.strides.getD a 0 = 0

/-- Axis map actually used: empty means right-aligned. -/
def effDims (inDims : List Nat) (rank n : Nat) : List Nat :=
  if inDims = [] then (List.range rank).map (· + (n - rank)) else inDims

/-- C06 (partial: holds for views whose size-1 axes have stride 0): broadcasting reads the source element with size-1
axes clamped to 0.  Missing for the full claim: views produced by a strided slice may violate `OnesZero`,
see `c06_broadcast_after_strided_slice_wrong`. -/
theorem c06_broadcast_partial {α : Type} {v : View} (hv : v.WF) (h1 : OnesZero v) {tgt : Shape} {inDims : List Nat}
    (hl : (effDims inDims v.shape.length tgt.length).length = v.shape.length) (hr : v.shape.length ≤ tgt.length)
    (hn : inDims.Nodup) (hb : ∀ a ∈ inDims, a < tgt.length)
    (hc : ∀ k, k < v.shape.length → v.shape.getD k 0 = 1 ∨
      tgt.getD ((effDims inDims v.shape.length tgt.length).getD k 0) 0 = v.shape.getD k 0) :
    ∃ w, v.broadcastTo tgt inDims = some w ∧ w.WF ∧ w.shape = tgt ∧
      ∀ (buf : Array α) idx, InB idx tgt →
        InB (bcastSrc (effDims inDims v.shape.length tgt.length) v.shape idx) v.shape ∧
        w.get buf idx = v.get buf (bcastSrc (effDims inDims v.shape.length tgt.length) v.shape idx) := by
  set ed := effDims inDims v.shape.length tgt.length with hed
  have hedb : ∀ a ∈ ed, a < tgt.length := by
    intro a ha
    rw [hed, effDims] at ha
    split at ha
    · simp only [List.mem_map, List.mem_range] at ha
      obtain ⟨k, hk, rfl⟩ := ha
      omega
    · exact hb a ha
  have hin : ∀ idx, InB idx tgt → InB (bcastSrc ed v.shape idx) v.shape := by
    intro idx hi
    have hi' := (InB_iff _ _).1 hi
    rw [InB_iff]
    refine ⟨by simp [bcastSrc, hl], fun a ha => ?_⟩
    have ha' : a < ed.length := by omega
    have hg : (bcastSrc ed v.shape idx).getD a 0 =
        if v.shape.getD a 0 = 1 then 0 else idx.getD (ed.getD a 0) 0 := by
      simp [bcastSrc, List.getD_eq_getElem?_getD, ha, ha']
    rw [hg]
    split
    · omega
    · rename_i hne
      rcases hc a ha with h | h
      · exact absurd h hne
      · rw [← h]
        exact hi'.2 _ (hedb _ (by rw [List.getD_eq_getElem _ _ ha']; exact List.getElem_mem ha'))
  have hsum : ∀ idx : Index, bsum idx ed v.strides = strideDot (bcastSrc ed v.shape idx) v.strides :=
    fun idx => bsum_bcast idx ed v.shape v.strides hl hv h1
  by_cases he : inDims = []
  · subst he
    have hed' : ed = (List.range v.shape.length).map (· + (tgt.length - v.shape.length)) := by simp [hed, effDims]
    refine ⟨⟨tgt, List.replicate (tgt.length - v.strides.length) 0 ++ v.strides, v.offset⟩, ?_, ?_, rfl, ?_⟩
    · unfold View.broadcastTo
      unfold View.WF at hv
      simp only [List.all_nil, not_true_eq_false, if_false, ne_eq]
      rw [if_neg (by omega)]
    · unfold View.WF at hv ⊢
      simp only [List.length_append, List.length_replicate]; omega
    · intro buf idx hi
      refine ⟨hin idx hi, ?_⟩
      have hwf : (⟨tgt, List.replicate (tgt.length - v.strides.length) 0 ++ v.strides, v.offset⟩ : View).WF := by
        unfold View.WF at hv ⊢
        simp only [List.length_append, List.length_replicate]; omega
      unfold View.get
      rw [addr_eq hwf, addr_eq hv, ← hsum, hed']
      congr 2
      have hli := InB.length hi
      unfold View.WF at hv
      rw [← hv]
      exact strideDot_right idx v.strides tgt.length hli
  · have hed' : ed = inDims := by simp [hed, effDims, he]
    rw [hed'] at hl hin hsum hedb ⊢
    obtain ⟨st, hst, hlen, hdot⟩ := bcastFold inDims v.strides 0 (List.replicate tgt.length 0) hn
      (by rw [hv, hl]; omega) (by simpa using hb) (by intro a _; simp [List.getD_eq_getElem?_getD, List.getElem?_replicate]; split <;> rfl)
    refine ⟨⟨tgt, st, v.offset⟩, ?_, by simpa [View.WF] using hlen, rfl, ?_⟩
    · unfold View.broadcastTo
      rw [if_neg (by simpa using hb), if_pos he]
      rw [hst]; rfl
    · intro buf idx hi
      refine ⟨hin idx hi, ?_⟩
      unfold View.get
      rw [addr_eq (by simpa [View.WF] using hlen), addr_eq hv, ← hsum]
      congr 2
      have := hdot idx (by simpa using InB.length hi)
      simp only [List.drop_zero] at this
      rw [this]
      have : strideDot idx (List.replicate tgt.length (0 : Int)) = 0 := strideDot_zero_strides idx _
      rw [this]; ring

example : (⟨[1, 3], [0, 1], 0⟩ : View).broadcastTo [2, 2, 3] [] = some ⟨[2, 2, 3], [0, 0, 1], 0⟩ ∧
    OnesZero ⟨[1, 3], [0, 1], 0⟩ := by
  refine ⟨by decide, ?_⟩
  intro a ha h
  have : a = 0 ∨ a = 1 := by simp at ha; omega
  rcases this with rfl | rfl <;> simp_all

/-- C06 is violated by the code: slicing a fresh vector of 4 elements with step 2 to one element and broadcasting that
one-element vector to length 2 yields element 0 and then element *2* of the vector, not element 0 twice. -/
theorem c06_broadcast_after_strided_slice_wrong :
    ∃ (v w u : View) (buf : Array Nat), v = ⟨[4], makeCompactStrides [4], 0⟩ ∧ v.Valid buf ∧
      v.slice [0] [2] (some [2]) = some w ∧ w.shape = [1] ∧ w.broadcastTo [2] [0] = some u ∧ u.shape = [2] ∧
      u.get buf [0] = v.get buf [0] ∧ u.get buf [1] ≠ v.get buf [0] := by
  refine ⟨⟨[4], makeCompactStrides [4], 0⟩, ⟨[1], [2], 0⟩, ⟨[2], [2], 0⟩, #[10, 11, 12, 13], rfl, ⟨rfl, ?_⟩, by decide, rfl,
    by decide, rfl, by decide, by decide⟩
  intro idx h
  have hg := get_compact (buf := #[10, 11, 12, 13]) (o := 0) h
  simp only [Int.ofNat_zero, Nat.zero_add] at hg
  have := pos_lt_size h
  simp only [size] at this
  exact ⟨_, hg.trans <| Array.getElem?_eq_getElem (by simpa using this)⟩

/-- C06 is violated by the code, out-of-bounds variant: for a fresh vector of 2 elements the same history reads
outside the buffer. -/
theorem c06_broadcast_after_strided_slice_oob :
    ∃ (v w u : View) (buf : Array Nat), v = ⟨[2], makeCompactStrides [2], 0⟩ ∧ buf.size = 2 ∧
      v.slice [0] [2] (some [2]) = some w ∧ w.shape = [1] ∧ w.broadcastTo [3] [0] = some u ∧
      InB [1] u.shape ∧ u.get buf [1] = none :=
  ⟨⟨[2], makeCompactStrides [2], 0⟩, ⟨[1], [2], 0⟩, ⟨[3], [2], 0⟩, #[10, 11], rfl, rfl, by decide, rfl, by decide,
    .cons (by decide) .nil, by decide⟩

/-! ## C07 -/

/-- C07: reshaping a valid view to a shape with the same element count succeeds (no out-of-range access, whether or not
a copy is made), yields a valid view of the requested shape, and preserves the row-major element sequence. -/
theorem c07_reshape {α : Type} {v : View} {buf : Array α} (hv : v.Valid buf) {tgt : Shape}
    (hs : size v.shape = size tgt) :
    ∃ b w, v.reshape buf tgt = some (b, w) ∧ w.shape = tgt ∧ w.Valid b ∧
      ∀ i j, InB i v.shape → InB j tgt → pos i v.shape = pos j tgt → w.get b j = v.get buf i := by
  have key : ∀ (b : Array α) (w : View), w.WF → w.shape = tgt →
      (∀ i j, InB i v.shape → InB j tgt → pos i v.shape = pos j tgt → w.get b j = v.get buf i) → w.Valid b := by
    intro b w hwf hsh hget
    refine ⟨hwf, fun j hj => ?_⟩
    rw [hsh] at hj
    obtain ⟨i, hi, e⟩ := exists_InB (sh := v.shape) (p := pos j tgt) (by rw [hs]; exact pos_lt_size hj)
    rw [hget i j hi hj e]
    exact hv.2 i hi
  unfold View.reshape
  split
  · rename_i h
    subst h
    exact ⟨buf, v, rfl, rfl, hv, fun i j hi hj e => by rw [pos_inj hi hj e]⟩
  · rw [if_neg (by rw [numel_eq_size, numel_eq_size]; omega)]
    split
    · rename_i h0
      rw [numel_eq_size] at h0
      have hno : ∀ j, ¬ InB j tgt := fun j h => by have := size_pos_of_InB h; omega
      exact ⟨_, _, rfl, rfl, ⟨makeCompactStrides_length _, fun j hj => absurd hj (hno j)⟩,
        fun i j _ hj => absurd hj (hno j)⟩
    · rename_i h0
      rw [numel_eq_size] at h0
      have hatt := attempt_spec hv.1 hs (by omega)
      cases hq : attemptNocopyReshape v tgt with
      | ub => exact absurd hq hatt.1
      | ok ss =>
        have hsl := hatt.2 ss hq
        have hwf : (⟨tgt, ss, v.offset⟩ : View).WF := hsl.len
        have hget : ∀ i j, InB i v.shape → InB j tgt → pos i v.shape = pos j tgt →
            (⟨tgt, ss, v.offset⟩ : View).get buf j = v.get buf i := by
          intro i j hi hj e
          unfold View.get
          rw [addr_eq hwf, addr_eq hv.1, hsl.eq j i hj hi e.symm]
        exact ⟨_, _, rfl, rfl, key _ _ hwf rfl hget, hget⟩
      | notContiguous =>
        obtain ⟨b, w, h1, h2, h3, h4, h5, h6⟩ := clone_spec hv
        have hget : ∀ i j, InB i v.shape → InB j tgt → pos i v.shape = pos j tgt →
            (⟨tgt, makeCompactStrides tgt, 0⟩ : View).get b j = v.get buf i := by
          intro i j hi hj e
          have := get_compact (buf := b) (o := 0) hj
          simp only [Int.ofNat_zero, Nat.zero_add] at this
          rw [h6 i hi, e]; exact this
        have hwf : (⟨tgt, makeCompactStrides tgt, 0⟩ : View).WF := makeCompactStrides_length _
        exact ⟨b, ⟨tgt, makeCompactStrides tgt, 0⟩, by simp [h1], rfl, key _ _ hwf rfl hget, hget⟩

/-- Both paths occur: a transposed view needs a copy, a row-skipping view does not. -/
example : attemptNocopyReshape ⟨[3, 2], [1, 3], 0⟩ [6] = .notContiguous ∧
    attemptNocopyReshape ⟨[2, 6], [12, 1], 0⟩ [2, 2, 1, 3] = .ok [12, 3, 0, 1] := by decide +kernel

/-- C07 (size mismatch is rejected). -/
theorem c07_reshape_rejects {α : Type} {v : View} {buf : Array α} {tgt : Shape} (hs : size v.shape ≠ size tgt) :
    v.reshape buf tgt = none := by
  unfold View.reshape
  rw [if_neg (by rintro rfl; exact hs rfl), if_pos (by rw [numel_eq_size, numel_eq_size]; exact hs)]

end Spu.Props

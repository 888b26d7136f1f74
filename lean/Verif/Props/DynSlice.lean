import Verif.Lemmas.DynSlice

set_option autoImplicit false

/-!
# C76: dynamic slices and updates

The results are those of the StableHLO specification, whichever of the indices are public and whichever way the secret path takes.
-/

namespace Spu.Props
open Spu.Spec Spu.Model Spu.Lemmas Spu.Lemmas.T Spu.Model.Dyn

theorem clampStarts_eq {sh sizes : List ℕ} (h : SliceFits sh sizes) : ∀ vs : List ℤ,
    clampStarts sh sizes vs = (dynStart sh sizes vs).map fun (k : ℕ) => (k : ℤ) := by
  induction h with
  | nil => intro vs; simp [clampStarts, dynStart]
  | cons h1 _ ih =>
    intro vs
    cases vs with
    | nil => simp [clampStarts, dynStart]
    | cons v vs =>
      simp only [clampStarts, dynStart, List.map_cons, ih, clampTo]
      congr 1
      omega

theorem dynStart_ok {sh sizes : List ℕ} (h : SliceFits sh sizes) : ∀ {vs : List ℤ}, vs.length = sizes.length → 0 ∉ sizes →
    StartsOk sh sizes (dynStart sh sizes vs) := by
  induction h with
  | nil => intro vs hv _; cases vs; exact .nil; simp at hv
  | cons h1 _ ih =>
    intro vs hv h0
    cases vs with
    | nil => simp at hv
    | cons v vs =>
      simp only [List.mem_cons, not_or] at h0
      exact .cons (by simp only [clampTo]; omega) (by omega) (ih (by simpa using hv) h0.2)

/-- starts at which a slice fits that may be empty -/
inductive StartsLe : List ℕ → List ℕ → List ℕ → Prop
  | nil : StartsLe [] [] []
  | cons {d s b : ℕ} {ds ss bs : List ℕ} : b + s ≤ d → StartsLe ds ss bs → StartsLe (d :: ds) (s :: ss) (b :: bs)

theorem dynStart_le {sh sizes : List ℕ} (h : SliceFits sh sizes) : ∀ {vs : List ℤ}, vs.length = sizes.length →
    StartsLe sh sizes (dynStart sh sizes vs) := by
  induction h with
  | nil => intro vs hv; cases vs; exact .nil; simp at hv
  | cons h1 _ ih =>
    intro vs hv
    cases vs with
    | nil => simp at hv
    | cons v vs => exact .cons (by simp only [clampTo]; omega) (ih (by simpa using hv))

theorem StartsLe.inB {sh sizes b o : List ℕ} (h : StartsLe sh sizes b) (ho : InB o sizes) : InB (shift b o) sh := by
  induction h generalizing o with
  | nil => cases ho; exact .nil
  | cons h1 _ ih =>
    cases ho with
    | cons h2 h3 => rw [shift_cons]; exact .cons (by omega) (ih h3)

theorem StartsLe.slice {sh sizes b : List ℕ} (h : StartsLe sh sizes b) :
    Ten.fits (List.zipWith (· + ·) b sizes) sh = true ∧ b.length = sh.length ∧
      sliceShape b (List.zipWith (· + ·) b sizes) (List.replicate sh.length 1) = sizes ∧
      ∀ o, InB o sizes → affine b (List.replicate sh.length 1) o = shift b o := by
  induction h with
  | nil => exact ⟨rfl, rfl, rfl, fun o ho => by cases ho; rfl⟩
  | cons h1 _ ih =>
    obtain ⟨i1, i2, i3, i4⟩ := ih
    refine ⟨by simp [Ten.fits, i1, h1], by simp [i2], by simp [sliceShape, List.replicate_succ, i3], fun o ho => ?_⟩
    cases ho with
    | cons h2 h3 => simp [affine, List.replicate_succ, i4 _ h3, shift_cons]

theorem sliceI_spec {α : Type} {op : Ten α} {sizes b : List ℕ} (h : StartsLe op.shape sizes b) :
    ∃ r, sliceI op (b.map fun (k : ℕ) => (k : ℤ)) ((List.zipWith (· + ·) b sizes).map fun (k : ℕ) => (k : ℤ)) = some r ∧
      r.shape = sizes ∧ ∀ o, InB o sizes → r.get o = op.get (shift b o) := by
  obtain ⟨h1, h2, h3, h4⟩ := h.slice
  unfold sliceI
  have hc : ∀ l : List ℕ, (l.map fun (k : ℕ) => (k : ℤ)).all (fun v => decide (0 ≤ v)) = true := by
    intro l
    rw [List.all_eq_true]
    intro x hx
    obtain ⟨k, -, rfl⟩ := List.mem_map.1 hx
    simp
  rw [if_pos ⟨hc _, hc _⟩]
  have e : ∀ l : List ℕ, (l.map fun (k : ℕ) => (k : ℤ)).map Int.toNat = l := by
    intro l
    rw [List.map_map]
    conv_rhs => rw [← List.map_id l]
    apply List.map_congr_left
    intro a _
    simp
  rw [e, e]
  unfold Ten.slice
  rw [if_pos ⟨h1, h2, by simp, by simp [List.mem_replicate]⟩]
  exact ⟨_, rfl, h3, fun o ho => by simp only [h4 o ho]⟩

theorem publicSlice_spec {α : Type} {op : Ten α} {sizes : List ℕ} {vs : List ℤ} (hf : SliceFits op.shape sizes)
    (hl : vs.length = sizes.length) :
    ∃ r, publicSlice op sizes vs = some r ∧ r.shape = sizes ∧
      ∀ o, InB o sizes → r.get o = op.get (shift (dynStart op.shape sizes vs) o) := by
  obtain ⟨r, h1, h2⟩ := sliceI_spec (dynStart_le hf hl)
  refine ⟨r, ?_, h2⟩
  unfold publicSlice
  simp only [clampStarts_eq hf]
  rw [← h1]
  congr 1
  generalize dynStart op.shape sizes vs = b
  clear h1 h2 hl hf
  induction b generalizing sizes with
  | nil => simp
  | cons x xs ih =>
    cases sizes with
    | nil => simp
    | cons s ss => simp only [List.map_cons, List.zipWith_cons_cons, ih]; simp

/-- what pruning does: the start and the extents of the pruned operand -/
def pruneAt : List ℕ → List ℕ → List StartIdx → List ℕ × List ℕ
  | d :: ds, s :: ss, i :: is =>
    let r := pruneAt ds ss is
    if i.secret then (0 :: r.1, d :: r.2) else (clampTo (d - s) i.val :: r.1, s :: r.2)
  | _, _, _ => ([], [])

theorem pruneAt_spec {sh sizes : List ℕ} (h : SliceFits sh sizes) : ∀ {is : List StartIdx}, is.length = sizes.length →
    (∀ i ∈ is, i.secret = false → 0 ≤ i.val) →
    (pruneBounds sh sizes is).map Prod.fst = (pruneAt sh sizes is).1.map (fun (k : ℕ) => (k : ℤ)) ∧
    (pruneBounds sh sizes is).map Prod.snd =
      (List.zipWith (· + ·) (pruneAt sh sizes is).1 (pruneAt sh sizes is).2).map (fun (k : ℕ) => (k : ℤ)) ∧
    StartsLe sh (pruneAt sh sizes is).2 (pruneAt sh sizes is).1 ∧
    SliceFits (pruneAt sh sizes is).2 sizes ∧
    (∀ d ∈ (pruneAt sh sizes is).2, ∃ d' ∈ sh, d ≤ d') ∧
    ∀ o, InB o sizes → shift (pruneAt sh sizes is).1
        (shift (dynStart (pruneAt sh sizes is).2 sizes (is.map fun i => if i.secret then i.val else 0)) o) =
      shift (dynStart sh sizes (is.map StartIdx.val)) o := by
  induction h with
  | nil =>
    intro is hl _
    cases is with
    | nil => exact ⟨rfl, rfl, .nil, .nil, by simp [pruneAt], fun o _ => rfl⟩
    | cons _ _ => simp at hl
  | cons h1 _ ih =>
    intro is hl hp
    cases is with
    | nil => simp at hl
    | cons i is =>
      rename_i d s ds ss _
      obtain ⟨i1, i2, i3, i4, i5, i6⟩ := ih (is := is) (by simpa using hl) fun j hj => hp j (by simp [hj])
      rcases hs : i.secret with _ | _
      · have h0 := hp i (by simp) hs
        simp only [pruneAt, pruneBounds, hs, Bool.false_eq_true, if_false, List.map_cons, List.zipWith_cons_cons, dynStart]
        refine ⟨?_, ?_, .cons (by simp only [clampTo]; omega) i3, .cons (by omega) i4, ?_, ?_⟩
        · rw [i1]; congr 1; simp only [clampTo]; omega
        · rw [i2]; congr 1; simp only [clampTo]; push_cast; omega
        · intro e he
          rcases List.mem_cons.1 he with rfl | he
          · exact ⟨d, by simp, h1⟩
          · obtain ⟨d', h, h'⟩ := i5 e he; exact ⟨d', by simp [h], h'⟩
        · intro o ho
          cases ho with
          | cons o1 o2 =>
            simp only [shift_cons, i6 _ o2]
            congr 1
            simp only [clampTo]; omega
      · simp only [pruneAt, pruneBounds, hs, if_true, List.map_cons, List.zipWith_cons_cons, dynStart]
        refine ⟨by rw [i1]; simp, by rw [i2]; simp, .cons (by omega) i3, .cons h1 i4, ?_, ?_⟩
        · intro e he
          rcases List.mem_cons.1 he with rfl | he
          · exact ⟨e, by simp, le_rfl⟩
          · obtain ⟨d', h, h'⟩ := i5 e he; exact ⟨d', by simp [h], h'⟩
        · intro o ho
          cases ho with
          | cons o1 o2 => simp only [shift_cons, i6 _ o2, Nat.zero_add]

variable {R : Type} [CommRing R]

/-- C76: a dynamic slice consists of the elements from the adjusted start on.  If some index is secret, then the slice must not be
empty, the public indices must not be negative, and without oblivious reads the index type must hold all numbers below the
extents. -/
theorem c76_dynamicSlice {oram : Bool} {ty : IntTy} {op : Ten R} {sizes : List ℕ} {starts : List StartIdx}
    (hf : SliceFits op.shape sizes) (hl : starts.length = sizes.length) (hne : starts ≠ [])
    (hsec : (∃ i ∈ starts, i.secret = true) → 0 ∉ sizes ∧ (∀ i ∈ starts, i.secret = false → 0 ≤ i.val) ∧
      (oram = false → ∀ d ∈ op.shape, ∀ k : ℕ, k < d → ty.wrap k = k)) :
    ∃ r, dynamicSlice oram ty op sizes starts = some r ∧ r.shape = sizes ∧
      ∀ o, InB o sizes → r.get o = op.get (shift (dynStart op.shape sizes (starts.map StartIdx.val)) o) := by
  have hlen : sizes.length = op.shape.length := by
    clear hsec
    generalize op.shape = sh at hf
    clear hl
    induction hf with
    | nil => rfl
    | cons _ _ ih => simp [ih]
  have hsne : sizes ≠ [] := by
    rintro rfl
    exact hne (List.length_eq_zero_iff.1 hl)
  unfold dynamicSlice
  rw [if_pos ⟨hl.symm, hlen, hne⟩]
  by_cases hall : starts.all (fun i => !i.secret) = true
  · rw [if_pos hall]
    exact publicSlice_spec hf (by simpa using hl)
  · rw [if_neg hall]
    obtain ⟨h0, hp, hw⟩ := hsec (by simpa using hall)
    unfold secretDynamicSlice
    by_cases hany : starts.any (fun i => !i.secret) = true
    · rw [if_pos hany]
      obtain ⟨p1, p2, p3, p4, p5, p6⟩ := pruneAt_spec hf hl hp
      obtain ⟨q, q1, q2, q3⟩ := sliceI_spec p3
      have hq : prune op sizes starts = some q := by
        unfold prune
        simp only [p1, p2]
        exact q1
      rw [hq]
      simp only [Option.bind_eq_bind, Option.bind_some]
      rw [q2, clampStarts_eq p4]
      obtain ⟨r, r1, r2, r3⟩ := oramImpl_spec (oram := oram) (ty := ty) hsne (op := q)
        (b := dynStart (pruneAt op.shape sizes starts).2 sizes (starts.map fun i => if i.secret then i.val else 0))
        (by rw [q2]; exact dynStart_ok p4 (by simpa using hl) h0) (by
          rw [q2]
          intro ho d hd k hk
          obtain ⟨d', h, h'⟩ := p5 d hd
          exact hw ho d' h k (by omega))
      refine ⟨r, r1, r2, fun o ho => ?_⟩
      rw [r3 o ho, q3 _ ((dynStart_le p4 (by simpa using hl)).inB ho), p6 o ho]
    · rw [if_neg hany]
      simp only [Option.bind_eq_bind, Option.bind_some]
      have e : (starts.map fun i => if i.secret then i.val else 0) = starts.map StartIdx.val := by
        apply List.map_congr_left
        intro i hi
        have : i.secret = true := by
          simp only [List.any_eq_true, not_exists, not_and] at hany
          simpa using hany i hi
        rw [if_pos this]
      rw [e, clampStarts_eq hf]
      exact oramImpl_spec hsne (dynStart_ok hf (by simpa using hl) h0) hw

example : ∃ r, dynamicSlice false ⟨32, true⟩ (⟨[3, 4], fun i => (10 * i.getD 0 0 + i.getD 1 0 : ℤ)⟩ : Ten ℤ) [2, 2] [⟨true, 7⟩, ⟨false, 1⟩] = some r ∧
    r.shape = [2, 2] ∧ r.get [1, 0] = 21 := by
  obtain ⟨r, h1, h2, h3⟩ := c76_dynamicSlice (oram := false) (ty := ⟨32, true⟩)
    (op := (⟨[3, 4], fun i => (10 * i.getD 0 0 + i.getD 1 0 : ℤ)⟩ : Ten ℤ)) (sizes := [2, 2])
    (starts := [⟨true, 7⟩, ⟨false, 1⟩]) (.cons (by omega) (.cons (by omega) .nil)) rfl (by simp) (fun _ => by
      refine ⟨by simp, by simp, fun _ d hd k hk => ?_⟩
      have : d ≤ 4 := by simp at hd; omega
      unfold IntTy.wrap
      simp only [if_true]
      apply Int.bmod_eq_of_le <;> omega)
  exact ⟨r, h1, h2, by rw [h3 [1, 0] (.cons (by omega) (.cons (by omega) .nil))]; rfl⟩

/-- C76: a negative public index beside a secret one is not adjusted to 0; the slice begins outside the operand -/
theorem c76_negative_public_index :
    (dynamicSlice false ⟨32, true⟩ (⟨[3, 4], fun i => (10 * i.getD 0 0 + i.getD 1 0 : ℤ)⟩ : Ten ℤ) [2, 2]
      [⟨true, 0⟩, ⟨false, -1⟩]).isNone = true ∧
    ((dynamicSlice false ⟨32, true⟩ (⟨[3, 4], fun i => (10 * i.getD 0 0 + i.getD 1 0 : ℤ)⟩ : Ten ℤ) [2, 2]
      [⟨false, 0⟩, ⟨false, -1⟩]).map fun r => r.get [1, 1]) = some 11 := by decide +kernel

/-- C76: a secret slice without elements fails -/
theorem c76_empty_secret_slice :
    (dynamicSlice false ⟨32, true⟩ (⟨[3], fun i => (i.headD 0 : ℤ)⟩ : Ten ℤ) [0] [⟨true, 0⟩]).isNone = true ∧
    ((dynamicSlice false ⟨32, true⟩ (⟨[3], fun i => (i.headD 0 : ℤ)⟩ : Ten ℤ) [0] [⟨false, 0⟩]).map Ten.shape) = some [0] := by
  decide +kernel

/-- C76: with a secret index of type `uint8` into 300 elements, element 5 comes out as the sum of elements 5 and 261 -/
theorem c76_narrow_index :
    ((dynamicSlice false ⟨8, false⟩ (⟨[300], fun i => (i.headD 0 : ℤ)⟩ : Ten ℤ) [1] [⟨true, 5⟩]).map fun r => r.get [0]) =
      some (5 + 261) := by decide +kernel

/-- C76: an index type holds the numbers below an extent if the extent is not larger than its number of non-negative values -/
theorem c76_index_type {ty : IntTy} (hb : 0 < ty.bits) {d k : ℕ} (hd : d ≤ 2 ^ (if ty.signed then ty.bits - 1 else ty.bits))
    (hk : k < d) : ty.wrap k = k := by
  unfold IntTy.wrap
  split
  · rename_i h
    rw [if_pos h] at hd
    have : (2 : ℕ) ^ ty.bits = 2 * 2 ^ (ty.bits - 1) := by
      rw [← pow_succ']; congr 1; omega
    apply Int.bmod_eq_of_le
    · omega
    · omega
  · rename_i h
    rw [if_neg h] at hd
    apply Int.emod_eq_of_lt (by omega)
    exact_mod_cast lt_of_lt_of_le hk hd

/-! ## Updates -/

theorem pos_shift {sh b i : List ℕ} (hb : b.length = sh.length) (hi : i.length = sh.length) :
    pos (shift b i) sh = pos b sh + pos i sh := by
  induction sh generalizing b i with
  | nil => cases b <;> cases i <;> simp_all [pos, shift]
  | cons d ds ih =>
    cases b with
    | nil => simp at hb
    | cons x xs =>
      cases i with
      | nil => simp at hi
      | cons y ys =>
        rw [shift_cons]
        simp only [pos]
        rw [ih (by simpa using hb) (by simpa using hi)]
        ring

theorem flattenStart_eq {sh b : List ℕ} (hb : b.length = sh.length) :
    flattenStart (b.map fun (k : ℕ) => (k : ℤ)) sh = ((pos b sh : ℤ), (size sh : ℤ)) := by
  induction sh generalizing b with
  | nil => cases b <;> simp_all [flattenStart, pos, size]
  | cons d ds ih =>
    cases b with
    | nil => simp at hb
    | cons x xs =>
      simp only [List.map_cons, flattenStart, ih (show xs.length = ds.length by simpa using hb), pos, size]
      push_cast
      rw [Prod.mk.injEq]
      constructor <;> ring

theorem sliceFits_length {sh sizes : List ℕ} (h : SliceFits sh sizes) : sizes.length = sh.length := by
  induction h with
  | nil => rfl
  | cons _ _ ih => simp [ih]

theorem clampAndFlatten_eq {sh upd : List ℕ} {vs : List ℤ} (hf : SliceFits sh upd) (hl : vs.length = upd.length) (h0 : 0 ∉ upd) :
    clampAndFlatten vs upd sh = some ((allIdx upd).map fun i => ((pos (shift (dynStart sh upd vs) i) sh : ℕ) : ℤ)) := by
  have hb := (dynStart_le hf hl).slice.2.1
  unfold clampAndFlatten
  rw [visit_eq (size_pos_iff.2 h0), clampStarts_eq hf, flattenStart_eq hb]
  rw [mapM_some (allIdx upd) (fun i => flattenIndex i sh) (fun i => pos i sh) (by
    intro i hi
    have := (InB.length (mem_allIdx.1 hi)).trans (sliceFits_length hf)
    exact flattenIndex_eq this)]
  simp only [Option.bind_eq_bind, Option.bind_some, List.length_map, length_allIdx, if_true, List.map_map]
  congr 1
  apply List.map_congr_left
  intro i hi
  have := (InB.length (mem_allIdx.1 hi)).trans (sliceFits_length hf)
  simp only [Function.comp_apply, pos_shift hb this]
  push_cast; rfl

theorem foldUpdate (fu : ℕ → R) (ls : List ℤ) (k0 : ℕ) (x : Ten R) :
    let r := (ls.zipIdx k0).foldl (fun r p => linearUpdate r (fu p.2) p.1) x
    r.shape = x.shape ∧ (∀ j : ℕ, (j : ℤ) ∉ ls → r.get [j] = x.get [j]) ∧
      (ls.Nodup → ∀ (n j : ℕ), ls[n]? = some (j : ℤ) → r.get [j] = fu (k0 + n)) := by
  induction ls generalizing k0 x with
  | nil => simp
  | cons l ls ih =>
    simp only [List.zipIdx_cons, List.foldl_cons]
    obtain ⟨i1, i2, i3⟩ := ih (k0 + 1) (linearUpdate x (fu k0) l)
    refine ⟨by rw [i1]; rfl, fun j hj => ?_, fun hn n j hj => ?_⟩
    · simp only [List.mem_cons, not_or] at hj
      rw [i2 j hj.2]
      have e : ¬ l = (j : ℤ) := fun e => hj.1 e.symm
      simp [linearUpdate, e]
    · cases n with
      | zero =>
        simp only [List.getElem?_cons_zero, Option.some.injEq] at hj
        subst hj
        rw [i2 j (List.nodup_cons.1 hn).1]
        simp [linearUpdate]
      | succ n =>
        rw [i3 (List.nodup_cons.1 hn).2 n j (by simpa using hj)]
        congr 1; omega

theorem shift_inj {b i j : List ℕ} (hi : i.length = b.length) (hj : j.length = b.length) (h : shift b i = shift b j) : i = j := by
  induction b generalizing i j with
  | nil => rw [List.length_eq_zero_iff.1 hi, List.length_eq_zero_iff.1 hj]
  | cons x xs ih =>
    cases i with
    | nil => simp at hi
    | cons y ys =>
      cases j with
      | nil => simp at hj
      | cons z zs =>
        rw [shift_cons, shift_cons] at h
        simp only [List.cons.injEq] at h
        rw [ih (by simpa using hi) (by simpa using hj) h.2, show y = z by omega]

theorem updateFits_of {sh upd b : List ℕ} (h : StartsLe sh upd b) :
    updateFits sh upd (b.map fun (k : ℕ) => (k : ℤ)) = true := by
  induction h with
  | nil => rfl
  | cons h1 _ ih => simp only [List.map_cons, updateFits, ih, Bool.and_true, decide_eq_true_eq]; omega

theorem updatePlace_shift {upd b i : List ℕ} (hb : b.length = upd.length) (hi : InB i upd) :
    updatePlace (shift b i) upd (b.map fun (k : ℕ) => (k : ℤ)) = some i := by
  induction hi generalizing b with
  | nil => cases b; rfl; simp at hb
  | cons h1 _ ih =>
    cases b with
    | nil => simp at hb
    | cons x xs =>
      rw [shift_cons, List.map_cons]
      simp only [updatePlace]
      rw [if_pos (by push_cast; omega), ih (by simpa using hb)]
      simp

theorem updatePlace_some {upd b o i : List ℕ} (h : updatePlace o upd (b.map fun (k : ℕ) => (k : ℤ)) = some i) :
    InB i upd ∧ o = shift b i := by
  induction o generalizing upd b i with
  | nil =>
    cases upd <;> cases b <;> simp [updatePlace] at h
    subst h
    exact ⟨.nil, rfl⟩
  | cons x xs ih =>
    cases upd with
    | nil => cases b <;> simp [updatePlace] at h
    | cons u us =>
      cases b with
      | nil => simp [updatePlace] at h
      | cons c cs =>
        rw [List.map_cons] at h
        simp only [updatePlace] at h
        split at h
        · rename_i hc
          obtain ⟨q, q1, rfl⟩ := Option.map_eq_some_iff.1 h
          obtain ⟨h1, h2⟩ := ih q1
          refine ⟨.cons (by omega) h1, ?_⟩
          rw [shift_cons, ← h2]
          congr 1; omega
        · cases h

/-- C76: a dynamic update replaces the elements from the adjusted start on by those of the update, and no others -/
theorem c76_dynamicUpdateSlice {op upd : Ten R} {starts : List StartIdx} (hf : SliceFits op.shape upd.shape)
    (hl : starts.length = upd.shape.length) (hne : starts ≠ []) (h0 : (starts.headD ⟨false, 0⟩).secret = true → 0 ∉ upd.shape) :
    ∃ r rev, dynamicUpdateSlice op upd starts = some (r, rev) ∧ r.shape = op.shape ∧
      (∀ i, InB i upd.shape → r.get (shift (dynStart op.shape upd.shape (starts.map StartIdx.val)) i) = upd.get i) ∧
      (∀ o, InB o op.shape → (∀ i, InB i upd.shape → o ≠ shift (dynStart op.shape upd.shape (starts.map StartIdx.val)) i) →
        r.get o = op.get o) := by
  have hle := dynStart_le hf (vs := starts.map StartIdx.val) (by simpa using hl)
  have hb := hle.slice.2.1
  have hbu : (dynStart op.shape upd.shape (starts.map StartIdx.val)).length = upd.shape.length := hb.trans (sliceFits_length hf).symm
  obtain ⟨i0, is, rfl⟩ : ∃ i is, starts = i :: is := by
    cases starts with
    | nil => exact absurd rfl hne
    | cons i is => exact ⟨i, is, rfl⟩
  unfold dynamicUpdateSlice
  rw [if_pos ⟨hl.trans (sliceFits_length hf), hl⟩]
  simp only
  rcases hs : i0.secret with _ | _
  · simp only [Bool.false_eq_true, if_false]
    rw [clampStarts_eq hf]
    unfold writeSlice
    rw [if_pos (updateFits_of hle)]
    refine ⟨_, _, rfl, rfl, fun i hi => ?_, fun o ho hn => ?_⟩
    · simp only [updatePlace_shift hbu hi]
    · rcases e : updatePlace o upd.shape ((dynStart op.shape upd.shape (List.map StartIdx.val (i0 :: is))).map
        fun (k : ℕ) => (k : ℤ)) with _ | i
      · simp only [e]
      · obtain ⟨e1, e2⟩ := updatePlace_some e
        exact absurd e2 (hn i e1)
  · simp only [if_true]
    have h0 := h0 (by simpa using hs)
    obtain ⟨fo, f1⟩ := reshape_isSome (t := op) (sh := [size op.shape]) (size_single _)
    obtain ⟨f2, f3⟩ := reshape_spec f1
    obtain ⟨fu, g1⟩ := reshape_isSome (t := upd) (sh := [size upd.shape]) (size_single _)
    obtain ⟨g2, g3⟩ := reshape_spec g1
    rw [f1, g1, clampAndFlatten_eq hf (by simpa using hl) h0]
    simp only [Option.bind_eq_bind, Option.bind_some]
    generalize hbd : dynStart op.shape upd.shape (List.map StartIdx.val (i0 :: is)) = b at *
    obtain ⟨s1, s2, s3⟩ := foldUpdate (fun k => fu.get [k]) ((allIdx upd.shape).map fun i => ((pos (shift b i) op.shape : ℕ) : ℤ)) 0 fo
    generalize hret : List.foldl (fun r p => linearUpdate r (fu.get [p.2]) p.1) fo
      (((allIdx upd.shape).map fun i => ((pos (shift b i) op.shape : ℕ) : ℤ)).zipIdx) = ret at *
    obtain ⟨r, r1⟩ := reshape_isSome (t := ret) (sh := op.shape) (by rw [s1, f2, size_single])
    obtain ⟨r2, r3⟩ := reshape_spec r1
    rw [r1]
    have hget : ∀ o, InB o op.shape → r.get o = ret.get [pos o op.shape] := fun o ho =>
      r3 o _ ho (by rw [s1, f2]; exact InB_single (pos_lt_size ho)) (by rw [s1, f2, pos_single])
    have hnd : ((allIdx upd.shape).map fun i => ((pos (shift b i) op.shape : ℕ) : ℤ)).Nodup := by
      refine List.Nodup.map_on ?_ (nodup_allIdx _)
      intro x hx y hy e
      have hx := mem_allIdx.1 hx
      have hy := mem_allIdx.1 hy
      exact shift_inj ((InB.length hx).trans hbu.symm) ((InB.length hy).trans hbu.symm)
        (pos_inj (hle.inB hx) (hle.inB hy) (by exact_mod_cast e))
    refine ⟨r, [], rfl, r2, fun i hi => ?_, fun o ho hn => ?_⟩
    · rw [hget _ (hle.inB hi), s3 hnd (pos i upd.shape) _ (by
        rw [List.getElem?_map, getElem_allIdx hi]; rfl)]
      simp only [Nat.zero_add]
      exact g3 _ _ (InB_single (pos_lt_size hi)) hi (pos_single _ _)
    · rw [hget o ho, s2 _ (by
        intro hm
        obtain ⟨i, hi, e⟩ := List.mem_map.1 hm
        have hi := mem_allIdx.1 hi
        exact hn i hi (pos_inj ho (hle.inB hi) (by exact_mod_cast e.symm)))]
      exact f3 _ _ (InB_single (pos_lt_size ho)) ho (pos_single _ _)

example : ∃ r rev, dynamicUpdateSlice (⟨[3], fun i => (i.headD 0 : ℤ)⟩ : Ten ℤ) ⟨[2], fun i => (100 + i.headD 0 : ℤ)⟩ [⟨true, 9⟩] =
    some (r, rev) ∧ r.get [0] = 0 ∧ r.get [1] = 100 ∧ r.get [2] = 101 := by
  obtain ⟨r, rev, h1, h2, h3, h4⟩ := c76_dynamicUpdateSlice (op := (⟨[3], fun i => (i.headD 0 : ℤ)⟩ : Ten ℤ))
    (upd := ⟨[2], fun i => (100 + i.headD 0 : ℤ)⟩) (starts := [⟨true, 9⟩]) (.cons (by omega) .nil) rfl (by simp) (by simp)
  refine ⟨r, rev, h1, ?_, h3 [0] (.cons (by omega) .nil), h3 [1] (.cons (by omega) .nil)⟩
  refine h4 [0] (.cons (by omega) .nil) (fun i hi => ?_)
  cases hi with
  | cons h h' => cases h'; simp [shift, dynStart, clampTo]; omega

/-- C76: a dynamic update reveals exactly the secret indices that follow a public first index -/
theorem c76_update_reveals {op upd r : Ten R} {starts : List StartIdx} {rev : List ℕ}
    (h : dynamicUpdateSlice op upd starts = some (r, rev)) (k : ℕ) :
    k ∈ rev ↔ (starts.headD ⟨false, 0⟩).secret = false ∧ ∃ hk : k < starts.length, starts[k].secret = true := by
  unfold dynamicUpdateSlice at h
  split at h
  · cases starts with
    | nil => simp at h
    | cons i is =>
      simp only at h
      rcases hs : i.secret with _ | _
      · simp only [hs, Bool.false_eq_true, if_false, Option.bind_eq_bind, Option.bind_eq_some_iff, Option.pure_def,
          Option.some.injEq, Prod.mk.injEq] at h
        obtain ⟨_, _, _, rfl⟩ := h
        simp only [List.mem_filter, List.mem_range, List.headD_cons, hs, true_and]
        constructor
        · rintro ⟨h1, h2⟩
          refine ⟨h1, ?_⟩
          rwa [List.getD_eq_getElem?_getD, List.getElem?_eq_getElem h1] at h2
        · rintro ⟨h1, h2⟩
          refine ⟨h1, ?_⟩
          rwa [List.getD_eq_getElem?_getD, List.getElem?_eq_getElem h1]
      · simp only [hs, if_true, Option.bind_eq_bind, Option.bind_eq_some_iff, Option.pure_def, Option.some.injEq,
          Prod.mk.injEq] at h
        obtain ⟨_, _, _, _, _, _, _, _, _, rfl⟩ := h
        simp [hs]
  · cases h

/-- C76: a secret index after a public one is revealed -/
theorem c76_update_leak : ((dynamicUpdateSlice (⟨[2, 2], fun _ => (0 : ℤ)⟩ : Ten ℤ) ⟨[1, 1], fun _ => (1 : ℤ)⟩
    [⟨false, 0⟩, ⟨true, 1⟩]).map Prod.snd) = some [1] := by decide +kernel

/-! ## Filters -/

theorem filterIndices_eq (mask : List ℕ) (k : ℕ) :
    filterIndices mask k = ((mask.zipIdx k).filter fun p => decide (p.1 ≠ 0)).map Prod.snd := by
  induction mask generalizing k with
  | nil => rfl
  | cons m ms ih =>
    simp only [filterIndices, List.zipIdx_cons, List.filter_cons]
    by_cases h : m = 0 <;> simp [h, ih]

/-- C76: a filter keeps the elements whose mask is not zero, in order -/
theorem c76_filterByMask {α : Type} {op : Ten α} {mask : List ℕ} (h : op.shape = [mask.length]) :
    ∃ r, filterByMask op mask = some r ∧ r.shape = [(mask.filter fun m => decide (m ≠ 0)).length] ∧
      (allIdx r.shape).map r.get = (((allIdx op.shape).map op.get).zip mask |>.filter fun p => decide (p.2 ≠ 0)).map Prod.fst := by
  unfold filterByMask
  rw [if_pos h]
  refine ⟨_, rfl, ?_, ?_⟩
  · simp only [filterIndices_eq, List.length_map]
    congr 1
    have key : ∀ (ms : List ℕ) (k : ℕ),
        ((ms.zipIdx k).filter fun p => decide (p.1 ≠ 0)).length = (ms.filter fun m => decide (m ≠ 0)).length := by
      intro ms
      induction ms with
      | nil => intro k; rfl
      | cons m ms ih =>
        intro k
        have := ih (k + 1)
        by_cases hm : m = 0 <;> simp_all [List.zipIdx_cons]
    exact key mask 0
  · have e1 : ∀ (n : ℕ) (f : List ℕ → α), (allIdx [n]).map f = (List.range n).map fun k => f [k] := by
      intro n f
      simp [allIdx, List.map_flatMap, List.flatMap_singleton, ← List.map_eq_flatMap]
    rw [h, e1, e1]
    simp only [List.headD_cons]
    have e2 : ((List.range (filterIndices mask 0).length).map fun k => op.get [(filterIndices mask 0).getD k 0]) =
        (filterIndices mask 0).map fun a => op.get [a] := by
      conv_rhs => rw [← map_range_getD (filterIndices mask 0), List.map_map]
      rfl
    rw [e2, filterIndices_eq, List.map_map]
    have e3 : ∀ (ms : List ℕ) (k : ℕ), ((List.range' k ms.length).map fun a => op.get [a]).zip ms =
        (ms.zipIdx k).map fun p => (op.get [p.2], p.1) := by
      intro ms
      induction ms with
      | nil => intro k; rfl
      | cons m ms ih => intro k; simp [List.range'_succ, ih]
    rw [List.range_eq_range', e3, List.filter_map, List.map_map]
    rfl

example : ((filterByMask (⟨[4], fun i => (10 * i.headD 0 : ℕ)⟩ : Ten ℕ) [1, 0, 2, 0]).map fun r => (r.shape, r.get [0], r.get [1])) =
    some ([2], 0, 20) := by decide +kernel

end Spu.Props

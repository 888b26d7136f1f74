import Verif.Lemmas.Layout

set_option autoImplicit false

/-! Iterator and clone lemmas. -/

namespace Spu
open Model Spec

theorem contiguous_append {a b : List (Nat × Int)} (h : contiguous (a ++ b) = true) :
    contiguous a = true ∧ contiguous b = true := by
  induction a with
  | nil => exact ⟨rfl, h⟩
  | cons x xs ih =>
    cases xs with
    | nil =>
      refine ⟨rfl, ?_⟩
      cases b with
      | nil => rfl
      | cons y ys => simp only [List.cons_append, List.nil_append, contiguous, Bool.and_eq_true] at h; exact h.2
    | cons y ys =>
      simp only [List.cons_append, contiguous, Bool.and_eq_true] at h ih ⊢
      exact ⟨⟨h.1, (ih h.2).1⟩, (ih h.2).2⟩

theorem nocopyLoop_contig {N O} (h : contiguous O = true) : nocopyLoop N O ≠ .notContiguous := by
  fun_induction nocopyLoop N O with
  | case1 | case2 | case3 | case4 => simp
  | case5 n N o O gN gO N' O' hg hc hr ih =>
    have hsp := groupAxes_spec hg (by simp [size]) (by simp [size]) (by simp)
    rw [show [o].reverse ++ O = o :: O from rfl] at hsp
    rw [← hsp.2.1] at h
    exact ih (contiguous_append h).2
  | case6 n N o O gN gO N' O' hg hc =>
    have hsp := groupAxes_spec hg (by simp [size]) (by simp [size]) (by simp)
    rw [show [o].reverse ++ O = o :: O from rfl] at hsp
    rw [← hsp.2.1] at h
    exact absurd (contiguous_append h).1 hc

theorem contiguous_of_compact (l : Int) (st : List (Nat × Int)) (hne : ∀ x ∈ st, x.1 ≠ 1)
    (h : st.map Prod.snd = (makeCompactStrides (st.map Prod.fst)).map (fun c => l * c)) :
    contiguous st = true := by
  induction st with
  | nil => rfl
  | cons a rest ih =>
    cases rest with
    | nil => rfl
    | cons b rest =>
      have ha := hne a (by simp)
      have hb := hne b (by simp)
      simp only [List.map_cons, makeCompactStrides_cons, if_neg ha, if_neg hb, List.cons.injEq] at h ih
      simp only [contiguous, Bool.and_eq_true, beq_iff_eq]
      refine ⟨?_, ih (fun x hx => hne x (by simp [hx])) ⟨h.2.1, h.2.2⟩⟩
      rw [h.1, h.2.1]; simp only [size]; push_cast; ring

theorem fast_contig {d : Shape} {s : Strides} {lin : Int} (h : canUseFastIndexing d s = (true, lin)) :
    contiguous (Model.stripOnes d s) = true := by
  unfold canUseFastIndexing at h
  have hne : ∀ x ∈ Model.stripOnes d s, x.1 ≠ 1 := by
    clear h
    induction d generalizing s with
    | nil => simp [Model.stripOnes]
    | cons d ds ih =>
      cases s with
      | nil => simp [Model.stripOnes]
      | cons s ss =>
        simp only [Model.stripOnes]
        split
        · exact ih
        · intro x hx
          rcases List.mem_cons.1 hx with rfl | hx
          · assumption
          · exact ih x hx
  generalize Model.stripOnes d s = st at h hne
  dsimp only at h
  split at h
  · rename_i hq
    rw [List.getLast?_eq_none_iff] at hq
    subst hq
    rfl
  · rename_i a l hq
    split at h
    · rename_i hall
      refine contiguous_of_compact l st hne ?_
      clear hq hne h
      have hlen : (makeCompactStrides (st.map Prod.fst)).length = st.length := by
        simp [makeCompactStrides_length]
      generalize makeCompactStrides (st.map Prod.fst) = c at hall hlen
      induction st generalizing c with
      | nil => cases c <;> simp_all
      | cons x st ih =>
        cases c with
        | nil => simp at hlen
        | cons c cs =>
          simp only [List.zipWith_cons_cons, List.all_cons, id, Bool.and_eq_true, decide_eq_true_eq] at hall
          simp only [List.map_cons, hall.1]
          rw [ih cs hall.2 (by simpa using hlen)]
    · simp at h

theorem flatStrides_spec {v : View} (hv : v.WF) (hf : (canUseFastIndexing v.shape v.strides).1 = true)
    (hp : 0 < size v.shape) :
    ∃ ss, flatStrides v = some ([size v.shape], ss) ∧ SameLayout [size v.shape] ss v.shape v.strides := by
  unfold flatStrides
  rw [numel_eq_size]
  dsimp only
  split
  · rename_i h
    exact ⟨v.strides, by rw [← h], by rw [← h]; exact .refl hv⟩
  · rw [if_neg (by omega)]
    have hsz : size v.shape = size [size v.shape] := by simp [size]
    have h1 := attempt_spec hv hsz (by simp [size, hp])
    have hc : attemptNocopyReshape v [size v.shape] ≠ .notContiguous := by
      unfold attemptNocopyReshape
      have := nocopyLoop_contig (N := [size v.shape])
        (fast_contig (d := v.shape) (s := v.strides) (lin := (canUseFastIndexing v.shape v.strides).2)
          (by rw [← hf]))
      cases hq : nocopyLoop [size v.shape] (Model.stripOnes v.shape v.strides) with
      | ok s => simp
      | ub => simp
      | notContiguous => exact absurd hq this
    cases hq : attemptNocopyReshape v [size v.shape] with
    | ub => exact absurd hq h1.1
    | notContiguous => exact absurd hq hc
    | ok ss => exact ⟨ss, rfl, h1.2 ss hq⟩

/-- Iterator at row-major position `p` of a layout with base address `base`. -/
def IterAt (base : Int) (it : Iter) (p : Nat) : Prop :=
  it.strides.length = it.shape.length ∧
  ∃ idx, it.index = some idx ∧ InB idx it.shape ∧ pos idx it.shape = p ∧
    it.ptr = base + strideDot idx it.strides

theorem strideDot_zeros (s : Strides) (n : Nat) : strideDot (List.replicate n 0) s = 0 := by
  induction n generalizing s with
  | zero => simp [strideDot]
  | succ n ih => cases s with
    | nil => simp [strideDot, List.replicate_succ]
    | cons s ss => simp [List.replicate_succ, strideDot_cons, ih]

theorem iterStep_spec {idx sh : List Nat} {st : Strides} (h : InB idx sh) (hl : st.length = sh.length) (p : Int) :
    ((iterStep sh st idx p).1 = false → InB (iterStep sh st idx p).2.1 sh ∧
        pos (iterStep sh st idx p).2.1 sh = pos idx sh + 1 ∧
        (iterStep sh st idx p).2.2 = p + strideDot (iterStep sh st idx p).2.1 st - strideDot idx st) ∧
    ((iterStep sh st idx p).1 = true → pos idx sh + 1 = size sh ∧
        (iterStep sh st idx p).2.1 = List.replicate sh.length 0 ∧
        (iterStep sh st idx p).2.2 = p - strideDot idx st) := by
  induction h generalizing st p with
  | nil =>
    cases st with
    | nil => simp [iterStep, pos, size, strideDot]
    | cons => simp at hl
  | @cons i d is ds hi his ih =>
    cases st with
    | nil => simp at hl
    | cons s ss =>
      obtain ⟨h1, h2⟩ := ih (st := ss) (by simpa using hl) p
      simp only [iterStep]
      cases hc : (iterStep ds ss is p).1 with
      | false =>
        obtain ⟨a, b, c⟩ := h1 hc
        simp only [Bool.false_eq_true, if_false, forall_const, false_implies, and_true]
        refine ⟨.cons hi a, by simp only [pos, b]; omega, ?_⟩
        simp only [strideDot_cons, c]; ring
      | true =>
        obtain ⟨a, b, c⟩ := h2 hc
        simp only [if_true]
        split
        · rename_i hd
          subst hd
          simp only [reduceCtorEq, false_implies, forall_const, true_and]
          refine ⟨?_, by simp [b, List.replicate_succ], ?_⟩
          · simp only [pos, size, Nat.add_mul]; omega
          · rw [c, strideDot_cons]; push_cast; ring
        · simp only [reduceCtorEq, false_implies, forall_const, and_true]
          refine ⟨.cons (by omega) (b ▸ InB_zeros (size_pos_of_InB his)), ?_, ?_⟩
          · simp only [pos, b, pos_zeros, Nat.add_mul]; omega
          · rw [c, strideDot_cons, strideDot_cons, b, strideDot_zeros]; push_cast; ring

theorem iterNext_shape (it : Iter) : it.next.shape = it.shape ∧ it.next.strides = it.strides := by
  unfold Iter.next
  split
  · exact ⟨rfl, rfl⟩
  · split <;> exact ⟨rfl, rfl⟩

theorem IterAt.next {base it p} (h : IterAt base it p) :
    (p + 1 < size it.shape → IterAt base it.next (p + 1)) ∧
    (p + 1 = size it.shape → it.next.index = none) := by
  obtain ⟨hl, idx, h1, h2, h3, h4⟩ := h
  have hs := iterStep_spec h2 hl it.ptr
  unfold Iter.next
  simp only [h1]
  rcases hq : iterStep it.shape it.strides idx it.ptr with ⟨c, idx', p'⟩
  rw [hq] at hs
  cases c with
  | true =>
    have := (hs.2 rfl).1
    constructor
    · intro hlt; omega
    · intro _; rfl
  | false =>
    obtain ⟨a, b, c⟩ := hs.1 rfl
    constructor
    · intro _
      exact ⟨hl, idx', rfl, a, by simp only at b ⊢; omega, by simp only at c ⊢; rw [c, h4]; ring⟩
    · intro heq
      have := pos_lt_size a
      simp only at b this
      omega

/-- The iterator created at a valid index of a valid view sits at that index' position, over an equivalent layout. -/
theorem iterMk_spec {v : View} (hv : v.WF) {idx : Index} (hi : InB idx v.shape) :
    ∃ it, Iter.mk' v idx = some it ∧ IterAt v.offset it (pos idx v.shape) ∧
      SameLayout it.shape it.strides v.shape v.strides := by
  unfold Iter.mk'
  dsimp only
  have hb : inBounds idx v.shape = true := (inBounds_iff _ _).2 hi
  cases hf : (canUseFastIndexing v.shape v.strides).1 with
  | true =>
    obtain ⟨ss, h1, h2⟩ := flatStrides_spec hv hf (size_pos_of_InB hi)
    simp only [if_true, h1, hb, flattenIndex_eq (InB.length hi), Option.map_some]
    have hlt := pos_lt_size hi
    refine ⟨_, rfl, ⟨h2.len, [pos idx v.shape], rfl, .cons hlt .nil, by simp [pos, size], ?_⟩, h2⟩
    rw [addr_eq hv]
    refine congrArg (v.offset + ·) ?_
    exact (h2.eq [pos idx v.shape] idx (.cons hlt .nil) hi (by simp [pos, size])).symm
  | false =>
    simp only [Bool.false_eq_true, if_false, hb, if_true]
    exact ⟨_, rfl, ⟨hv, idx, rfl, hi, rfl, addr_eq hv _⟩, .refl hv⟩

/-- Reading loop. -/
theorem iterRead_spec {α : Type} {buf : Array α} {base : Int} {n : Nat} : ∀ {it : Iter} {p : Nat},
    (0 < n → IterAt base it p) → p + n ≤ size it.shape →
    (∀ idx, InB idx it.shape → ∃ x, rd buf (base + strideDot idx it.strides) = some x) →
    ∃ xs, iterRead buf it n = some xs ∧ xs.length = n ∧
      ∀ idx, InB idx it.shape → p ≤ pos idx it.shape → pos idx it.shape < p + n →
        rd buf (base + strideDot idx it.strides) = xs[pos idx it.shape - p]? := by
  induction n with
  | zero => intro it p _ _ _; exact ⟨[], rfl, rfl, fun idx _ h1 h2 => by omega⟩
  | succ n ih =>
    intro it p hat hle hrd
    have hat := hat (by omega)
    obtain ⟨hl, idx, h1, h2, h3, h4⟩ := hat
    obtain ⟨x, hx⟩ := hrd idx h2
    obtain ⟨e1, e2⟩ := iterNext_shape it
    have hnext := IterAt.next ⟨hl, idx, h1, h2, h3, h4⟩
    obtain ⟨xs, a, b, c⟩ := ih (it := it.next) (p := p + 1)
      (fun hn => hnext.1 (by omega)) (by rw [e1]; omega) (by rw [e1, e2]; exact hrd)
    refine ⟨x :: xs, ?_, by simp [b], ?_⟩
    · simp only [iterRead, Iter.deref, h1, Option.map_some, Option.bind_eq_bind, Option.bind_some, h4, hx, a,
        Option.pure_def]
    · intro idx' hi' hge hlt
      rw [e1, e2] at c
      rcases Nat.lt_or_ge p (pos idx' it.shape) with hgt | hle'
      · rw [c idx' hi' (by omega) (by omega)]
        obtain ⟨k, hk⟩ : ∃ k, pos idx' it.shape - p = k + 1 := ⟨pos idx' it.shape - p - 1, by omega⟩
        rw [hk, List.getElem?_cons_succ]
        congr 1
        omega
      · have : idx' = idx := pos_inj hi' h2 (by omega)
        subst this
        rw [hx, h3, Nat.sub_self]; rfl

/-- A view is valid for a buffer when every valid index reads an element of the buffer. -/
def _root_.Spu.Model.View.Valid {α : Type} (v : View) (buf : Array α) : Prop :=
  v.WF ∧ ∀ idx, InB idx v.shape → ∃ x, v.get buf idx = some x

/-- Reading a whole valid view in iteration order. -/
theorem readAll_spec {α : Type} {v : View} {buf : Array α} (hv : v.Valid buf) :
    ∃ it xs, v.begin = some it ∧ iterRead buf it (numel v.shape) = some xs ∧ xs.length = size v.shape ∧
      ∀ idx, InB idx v.shape → v.get buf idx = xs[pos idx v.shape]? := by
  obtain ⟨hwf, hrd⟩ := hv
  rw [numel_eq_size]
  rcases Nat.eq_zero_or_pos (size v.shape) with h0 | hp
  · rw [h0]
    have hnoin : ∀ idx, ¬ InB idx v.shape := fun idx h => by have := size_pos_of_InB h; omega
    have : ∃ it, v.begin = some it := by
      have hnb : inBounds (List.replicate v.shape.length 0) v.shape = false := by
        rw [Bool.eq_false_iff]
        intro h
        exact hnoin _ ((inBounds_iff _ _).1 h)
      unfold View.begin Iter.mk'
      dsimp only
      cases hf : (canUseFastIndexing v.shape v.strides).1 with
      | true =>
        have : ∃ r, flatStrides v = some r := by
          unfold flatStrides
          rw [numel_eq_size, h0]
          dsimp only
          split
          · exact ⟨_, rfl⟩
          · exact ⟨_, rfl⟩
        obtain ⟨⟨sh, st⟩, hr⟩ := this
        rw [if_pos rfl, hr]
        simp [hnb]
      | false => simp [hnb]
    obtain ⟨it, hit⟩ := this
    exact ⟨it, [], hit, rfl, rfl, fun idx h => absurd h (hnoin idx)⟩
  · obtain ⟨it, h1, h2, h3⟩ := iterMk_spec hwf (InB_zeros hp)
    rw [pos_zeros] at h2
    have hread : ∀ idx, InB idx it.shape → ∀ idx', InB idx' v.shape → pos idx it.shape = pos idx' v.shape →
        rd buf (v.offset + strideDot idx it.strides) = v.get buf idx' := by
      intro idx hi idx' hi' e
      rw [View.get, addr_eq hwf, h3.eq idx idx' hi hi' e]
    obtain ⟨xs, a, b, c⟩ := iterRead_spec (buf := buf) (base := v.offset) (n := size v.shape) (it := it) (p := 0)
      (fun _ => h2) (by rw [h3.sz]; omega) (by
        intro idx hi
        obtain ⟨idx', hi', e⟩ := exists_InB (sh := v.shape) (p := pos idx it.shape)
          (by rw [← h3.sz]; exact pos_lt_size hi)
        rw [hread idx hi idx' hi' e.symm]
        exact hrd idx' hi')
    refine ⟨it, xs, h1, a, b, fun idx' hi' => ?_⟩
    obtain ⟨idx, hi, e⟩ := exists_InB (sh := it.shape) (p := pos idx' v.shape)
      (by rw [h3.sz]; exact pos_lt_size hi')
    rw [← hread idx hi idx' hi' e, c idx hi (by omega) (by have := pos_lt_size hi'; omega), e, Nat.sub_zero]

theorem clone_spec {α : Type} {v : View} {buf : Array α} (hv : v.Valid buf) :
    ∃ b w, v.clone buf = some (b, w) ∧ w.shape = v.shape ∧ w.strides = makeCompactStrides v.shape ∧ w.offset = 0 ∧
      b.size = size v.shape ∧ ∀ idx, InB idx v.shape → v.get buf idx = b[pos idx v.shape]? := by
  obtain ⟨it, xs, h1, h2, h3, h4⟩ := readAll_spec hv
  refine ⟨xs.toArray, ⟨v.shape, makeCompactStrides v.shape, 0⟩, ?_, rfl, rfl, rfl, by simpa using h3, ?_⟩
  · simp [View.clone, h1, h2]
  · intro idx hi
    rw [h4 idx hi]; simp

theorem get_compact {α : Type} {buf : Array α} {sh : Shape} {o : Nat} {idx : Index} (h : InB idx sh) :
    (⟨sh, makeCompactStrides sh, o⟩ : View).get buf idx = buf[o + pos idx sh]? := by
  have hwf : (⟨sh, makeCompactStrides sh, o⟩ : View).WF := makeCompactStrides_length sh
  rw [View.get, addr_eq hwf]
  simp only [strideDot_compact h, rd]
  rw [if_neg (by omega)]
  congr 1

end Spu
